import Verif.Hid
import Verif.Spec.Hid

/-!
# Reading the reports of the firmwares
-/

namespace Verif.Hid

theorem bits_cons (b : Byte) (bs : List Byte) : bits (b :: bs) =
    b.getLsbD 0 :: b.getLsbD 1 :: b.getLsbD 2 :: b.getLsbD 3 :: b.getLsbD 4 :: b.getLsbD 5 :: b.getLsbD 6 :: b.getLsbD 7 :: bits bs := rfl

theorem number_byte : ∀ b : Byte,
    number [b.getLsbD 0, b.getLsbD 1, b.getLsbD 2, b.getLsbD 3, b.getLsbD 4, b.getLsbD 5, b.getLsbD 6, b.getLsbD 7] = b.toNat := by
  decide +kernel

theorem number_append (as bs : List Bool) : number (as ++ bs) = number as + 2 ^ as.length * number bs := by
  induction as with
  | nil => simp [number]
  | cons a as ih =>
    simp only [List.cons_append, number, ih, List.length_cons, Nat.pow_succ, Nat.mul_add, Nat.add_assoc]
    rw [Nat.mul_comm (2 ^ as.length) 2, Nat.mul_assoc]

theorem number_word (a b : Byte) :
    number [a.getLsbD 0, a.getLsbD 1, a.getLsbD 2, a.getLsbD 3, a.getLsbD 4, a.getLsbD 5, a.getLsbD 6, a.getLsbD 7,
      b.getLsbD 0, b.getLsbD 1, b.getLsbD 2, b.getLsbD 3, b.getLsbD 4, b.getLsbD 5, b.getLsbD 6, b.getLsbD 7] = a.toNat + 256 * b.toNat := by
  have := number_append [a.getLsbD 0, a.getLsbD 1, a.getLsbD 2, a.getLsbD 3, a.getLsbD 4, a.getLsbD 5, a.getLsbD 6, a.getLsbD 7]
    [b.getLsbD 0, b.getLsbD 1, b.getLsbD 2, b.getLsbD 3, b.getLsbD 4, b.getLsbD 5, b.getLsbD 6, b.getLsbD 7]
  simp only [List.cons_append, List.nil_append, List.length_cons, List.length_nil, Nat.reduceAdd, Nat.reducePow] at this
  rw [this, number_byte a, number_byte b]

theorem number_bit (b : Bool) : number [b] = b.toNat := by cases b <;> rfl

theorem inputs_usbKeyboard : inputs usbKeyboard = some [
    ⟨0, [keyboardUsage], false, true, false, [(7, 224, 231)], 0, 1, 1, 8⟩,
    ⟨0, [keyboardUsage], true, false, false, [], 0, 1, 8, 1⟩,
    ⟨0, [keyboardUsage], false, false, false, [(7, 0, 145)], 0, 255, 8, 6⟩] := by decide +kernel

theorem inputs_usbConsumer : inputs usbConsumer = some [
    ⟨0, [consumerUsage], false, false, false, [(12, 0, 255)], 0, 255, 8, 4⟩] := by decide +kernel

theorem inputs_usbMouse : inputs usbMouse = some [
    ⟨0, [pointerUsage, mouseUsage], false, true, false, [(9, 1, 3)], 0, 1, 1, 3⟩,
    ⟨0, [pointerUsage, mouseUsage], true, false, false, [], 0, 1, 5, 1⟩,
    ⟨0, [pointerUsage, mouseUsage], false, true, true, [(1, 48, 48), (1, 49, 49), (1, 56, 56)], -127, 127, 8, 3⟩] := by decide +kernel

theorem inputs_bleMap : inputs bleMap = some [
    ⟨1, [keyboardUsage], false, true, false, [(7, 224, 231)], 0, 1, 1, 8⟩,
    ⟨1, [keyboardUsage], true, false, false, [], 0, 1, 8, 1⟩,
    ⟨1, [keyboardUsage], false, false, false, [(7, 0, 101)], 0, 101, 8, 6⟩,
    ⟨2, [pointerUsage, mouseUsage], false, true, false, [(9, 1, 3)], 0, 1, 1, 3⟩,
    ⟨2, [pointerUsage, mouseUsage], true, true, false, [], 0, 1, 5, 1⟩,
    ⟨2, [pointerUsage, mouseUsage], false, true, true, [(1, 48, 48), (1, 49, 49), (1, 56, 56)], -127, 127, 8, 3⟩,
    ⟨2, [mouseUsage], false, true, true, [(12, 568, 568)], -127, 127, 8, 1⟩,
    ⟨3, [consumerUsage], false, false, false, [(12, 0, 1023)], 0, 1023, 16, 2⟩] := by decide +kernel

/-- The modifiers of a byte, as they are read. -/
def readMods (m : Byte) : List (Usage × Int) := (List.range 8).map fun i => ((7, 224 + i), (m.getLsbD i).toInt)

/-- The keys of an array of bytes, as they are read. -/
def readArray (page most : Nat) (ks : List Byte) : List (Usage × Int) :=
  ks.filterMap fun k => if k.toNat ≤ most then some ((page, k.toNat), 1) else none

/-- A signed byte, as it is read. -/
def readSigned (u : Usage) (b : Byte) : List (Usage × Int) := if b = 128#8 then [] else [(u, b.toInt)]

theorem elements_succ (size n : Nat) (bs : List Bool) :
    elements size (n + 1) bs = bs.take size :: elements size n (bs.drop size) := rfl

theorem elements_zero (size : Nat) (bs : List Bool) : elements size 0 bs = [] := rfl

theorem read_mods (f : Field) (m : Byte) (bs : List Byte) (hf : f = ⟨f.id, f.inside, false, true, f.relative, [(7, 224, 231)], 0, 1, 1, 8⟩) :
    f.read (bits (m :: bs)) = readMods m := by
  rw [hf, bits_cons, readMods]
  simp only [Field.read, elements_succ, elements_zero, List.take_succ_cons, List.take_zero, List.drop_succ_cons, List.drop_zero,
    List.map_cons, List.map_nil, Field.value, number_bit]
  have e : ∀ b : Bool, (b.toNat : Int) = b.toInt := by decide
  have h : ∀ b : Bool, (0 : Int) ≤ b.toInt ∧ b.toInt ≤ 1 := by decide
  simp [List.zipIdx_cons, h, e, usageAt, List.range, List.range.loop, List.filterMap_cons]

theorem read_array (f : Field) (page most : Nat) (hi : Int) (hh : hi ≤ 255) (hm : (most : Int) ≤ hi) (ks : List Byte) (bs : List Byte)
    (hf : f = ⟨f.id, f.inside, false, false, f.relative, [(page, 0, most)], 0, hi, 8, ks.length⟩) :
    f.read (bits (ks ++ bs)) = readArray page most ks := by
  have he : ∀ ks : List Byte, (elements 8 ks.length (bits (ks ++ bs))).map f.value = ks.map fun k => (k.toNat : Int) := by
    intro ks
    induction ks with
    | nil => rfl
    | cons k ks ih =>
      rw [List.cons_append, List.length_cons, elements_succ, bits_cons]
      simp only [List.take_succ_cons, List.take_zero, List.drop_succ_cons, List.drop_zero, List.map_cons, ih]
      rw [hf, Field.value, if_neg (by simp), number_byte]
  have hr : f.read (bits (ks ++ bs)) = ((elements 8 ks.length (bits (ks ++ bs))).map f.value).filterMap
      fun v => if 0 ≤ v ∧ v ≤ hi then (usageAt [(page, 0, most)] (v - 0).toNat).map (·, 1) else none := by
    rw [hf]; rfl
  rw [hr, he, List.filterMap_map, readArray]
  congr 1
  funext k
  have := k.isLt
  simp only [Function.comp, usageAt, Nat.sub_zero, Nat.zero_add, Int.sub_zero, Int.toNat_natCast]
  by_cases h : k.toNat ≤ most
  · rw [if_pos h, if_pos h, if_pos (by omega)]; rfl
  · rw [if_neg h, if_neg h]; simp

theorem value_signed (f : Field) (h : f.lo < 0) : ∀ b : Byte,
    f.value [b.getLsbD 0, b.getLsbD 1, b.getLsbD 2, b.getLsbD 3, b.getLsbD 4, b.getLsbD 5, b.getLsbD 6, b.getLsbD 7] = b.toInt := by
  intro b
  have := b.isLt
  simp only [Field.value, h, number_byte, List.length_cons, List.length_nil, BitVec.toInt]
  by_cases h' : 2 * b.toNat < 2 ^ 8
  · rw [if_pos h', if_neg (by omega)]
  · rw [if_neg h', if_pos ⟨trivial, by show 2 ^ 8 ≤ _; omega⟩]

theorem toInt_range : ∀ b : Byte, (-127 ≤ b.toInt ∧ b.toInt ≤ 127) ↔ b ≠ 128#8 := by decide +kernel

theorem read_xyw (f : Field) (x y w : Byte) (bs : List Byte)
    (hf : f = ⟨f.id, f.inside, false, true, f.relative, [(1, 48, 48), (1, 49, 49), (1, 56, 56)], -127, 127, 8, 3⟩) :
    f.read (bits (x :: y :: w :: bs)) = readSigned usageX x ++ readSigned usageY y ++ readSigned usageWheel w := by
  have hv := value_signed f (by rw [hf]; exact (by decide : (-127 : Int) < 0))
  have hr : f.read (bits (x :: y :: w :: bs)) = ((elements 8 3 (bits (x :: y :: w :: bs))).map f.value).zipIdx.filterMap
      fun (v, i) => if -127 ≤ v ∧ v ≤ 127 then (usageAt [(1, 48, 48), (1, 49, 49), (1, 56, 56)] i).map (·, v) else none := by
    rw [hf]; rfl
  rw [hr]
  simp only [elements_succ, elements_zero, bits_cons, List.take_succ_cons, List.take_zero, List.drop_succ_cons, List.drop_zero,
    List.map_cons, List.map_nil, hv, List.zipIdx_cons, List.zipIdx_nil, List.filterMap_cons, List.filterMap_nil, toInt_range, readSigned]
  by_cases hx : x = 128#8 <;> by_cases hy : y = 128#8 <;> by_cases hw : w = 128#8 <;>
    simp [hx, hy, hw, usageAt, usageX, usageY, usageWheel]

theorem read_pan (f : Field) (h : Byte) (bs : List Byte)
    (hf : f = ⟨f.id, f.inside, false, true, f.relative, [(12, 568, 568)], -127, 127, 8, 1⟩) :
    f.read (bits (h :: bs)) = readSigned usagePan h := by
  have hv := value_signed f (by rw [hf]; exact (by decide : (-127 : Int) < 0))
  have hr : f.read (bits (h :: bs)) = ((elements 8 1 (bits (h :: bs))).map f.value).zipIdx.filterMap
      fun (v, i) => if -127 ≤ v ∧ v ≤ 127 then (usageAt [(12, 568, 568)] i).map (·, v) else none := by
    rw [hf]; rfl
  rw [hr]
  simp only [elements_succ, elements_zero, bits_cons, List.take_succ_cons, List.take_zero, List.drop_succ_cons, List.drop_zero,
    List.map_cons, List.map_nil, hv, List.zipIdx_cons, List.zipIdx_nil, List.filterMap_cons, List.filterMap_nil, toInt_range, readSigned]
  by_cases hx : h = 128#8 <;> simp [hx, usageAt, usagePan]

/-- The three buttons of a byte, as they are read. -/
def readButtons (b : Byte) : List (Usage × Int) := (List.range 3).map fun i => ((9, 1 + i), (b.getLsbD i).toInt)

theorem read_buttons (f : Field) (m : Byte) (bs : List Byte) (hf : f = ⟨f.id, f.inside, false, true, f.relative, [(9, 1, 3)], 0, 1, 1, 3⟩) :
    f.read (bits (m :: bs)) = readButtons m := by
  rw [hf, bits_cons, readButtons]
  simp only [Field.read, elements_succ, elements_zero, List.take_succ_cons, List.take_zero, List.drop_succ_cons, List.drop_zero,
    List.map_cons, List.map_nil, Field.value, number_bit]
  have e : ∀ b : Bool, (b.toNat : Int) = b.toInt := by decide
  have h : ∀ b : Bool, (0 : Int) ≤ b.toInt ∧ b.toInt ≤ 1 := by decide
  simp [List.zipIdx_cons, h, e, usageAt, List.range, List.range.loop, List.filterMap_cons]

theorem read_const (f : Field) (bs : List Bool) (hf : f.const = true) : f.read bs = [] := by
  simp [Field.read, hf]

theorem drop_byte (b : Byte) (bs : List Byte) : (bits (b :: bs)).drop 8 = bits bs := rfl

theorem reading_usbKeyboard (m z : Byte) (ks : List Byte) (hl : ks.length = 6) :
    reading usbKeyboard 0 (m :: z :: ks) = some (readMods m ++ readArray 7 145 ks) := by
  rw [reading, inputs_usbKeyboard, Option.bind_some]
  simp only [List.filter_cons, decide_true, if_true, List.filter_nil]
  rw [if_pos ⟨by simp, by simp [hl]⟩]
  simp only [readFields, Nat.mul_one, Nat.one_mul, drop_byte]
  rw [read_mods _ _ _ rfl, read_const _ _ rfl]
  have := read_array ⟨0, [keyboardUsage], false, false, false, [(7, 0, 145)], 0, 255, 8, 6⟩ 7 145 255 (by decide) (by decide) ks []
    (by rw [hl])
  rw [List.append_nil] at this
  rw [this]; simp

theorem reading_usbConsumer (ks : List Byte) (hl : ks.length = 4) : reading usbConsumer 0 ks = some (readArray 12 255 ks) := by
  rw [reading, inputs_usbConsumer, Option.bind_some]
  simp only [List.filter_cons, decide_true, if_true, List.filter_nil]
  rw [if_pos ⟨by simp, by simp [hl]⟩]
  simp only [readFields]
  have := read_array ⟨0, [consumerUsage], false, false, false, [(12, 0, 255)], 0, 255, 8, 4⟩ 12 255 255 (by decide) (by decide) ks []
    (by rw [hl])
  rw [List.append_nil] at this
  rw [this]; simp

theorem reading_usbMouse (b x y w : Byte) :
    reading usbMouse 0 [b, x, y, w] = some (readButtons b ++ (readSigned usageX x ++ readSigned usageY y ++ readSigned usageWheel w)) := by
  rw [reading, inputs_usbMouse, Option.bind_some]
  simp only [List.filter_cons, decide_true, if_true, List.filter_nil]
  rw [if_pos ⟨by simp, by simp⟩]
  simp only [readFields, Nat.mul_one, Nat.one_mul, List.drop_drop]
  rw [read_buttons _ _ _ rfl, read_const _ _ rfl, drop_byte, read_xyw _ _ _ _ _ rfl]; simp

theorem reading_bleKeyboard (m z : Byte) (ks : List Byte) (hl : ks.length = 6) :
    reading bleMap 1 (m :: z :: ks) = some (readMods m ++ readArray 7 101 ks) := by
  rw [reading, inputs_bleMap, Option.bind_some]
  simp only [List.filter_cons, decide_true, if_true, List.filter_nil, decide_false, Bool.false_eq_true, if_false, Nat.reduceEqDiff]
  rw [if_pos ⟨by simp, by simp [hl]⟩]
  simp only [readFields, Nat.mul_one, Nat.one_mul, drop_byte]
  rw [read_mods _ _ _ rfl, read_const _ _ rfl]
  have := read_array ⟨1, [keyboardUsage], false, false, false, [(7, 0, 101)], 0, 101, 8, 6⟩ 7 101 101 (by decide) (by decide) ks []
    (by rw [hl])
  rw [List.append_nil] at this
  rw [this]; simp

theorem reading_bleMouse (b x y w h : Byte) :
    reading bleMap 2 [b, x, y, w, h] =
      some (readButtons b ++ (readSigned usageX x ++ readSigned usageY y ++ readSigned usageWheel w) ++ readSigned usagePan h) := by
  rw [reading, inputs_bleMap, Option.bind_some]
  simp only [List.filter_cons, decide_true, if_true, List.filter_nil, decide_false, Bool.false_eq_true, if_false, Nat.reduceEqDiff]
  rw [if_pos ⟨by simp, by simp⟩]
  simp only [readFields, Nat.mul_one, Nat.one_mul, List.drop_drop]
  rw [read_buttons _ _ _ rfl, read_const _ _ rfl, drop_byte, read_xyw _ _ _ _ _ rfl]
  have : (bits [b, x, y, w, h]).drop (3 + 5 + 8 * 3) = bits [h] := rfl
  rw [this, read_pan _ _ _ rfl]; simp

/-- Words, as they are read. -/
def readWords (ws : List Nat) : List (Usage × Int) := ws.filterMap fun w => if w ≤ 1023 then some ((12, w), 1) else none

theorem reading_bleConsumer (a b c d : Byte) :
    reading bleMap 3 [a, b, c, d] = some (readWords [a.toNat + 256 * b.toNat, c.toNat + 256 * d.toNat]) := by
  rw [reading, inputs_bleMap, Option.bind_some]
  simp only [List.filter_cons, decide_true, if_true, List.filter_nil, decide_false, Bool.false_eq_true, if_false, Nat.reduceEqDiff]
  rw [if_pos ⟨by simp, by simp⟩]
  simp only [readFields, Field.read, elements_succ, elements_zero, bits_cons, List.take_succ_cons, List.take_zero, List.drop_succ_cons, List.drop_zero,
    List.map_cons, List.map_nil, Field.value, number_word, readWords, List.append_nil]
  have h : ∀ w : Nat, (if (0 : Int) ≤ w ∧ (w : Int) ≤ 1023 then (usageAt [(12, 0, 1023)] ((w : Int) - 0).toNat).map (·, (1 : Int)) else none) =
      if w ≤ 1023 then some ((12, w), 1) else none := by
    intro w
    by_cases h : w ≤ 1023
    · rw [if_pos h, if_pos (by omega)]; simp [usageAt, h]
    · rw [if_neg h, if_neg (by omega)]
  have n0 : ¬ ((0 : Int) < 0) := by decide
  simp only [n0, false_and, if_false]
  generalize a.toNat + 256 * b.toNat = u
  generalize c.toNat + 256 * d.toNat = v
  simp only [List.filterMap_cons, List.filterMap_nil, h, Bool.false_eq_true, if_false]

end Verif.Hid
