import Verif.Composite
import Verif.Example
import Verif.StdSearch
import Verif.Props.Output

/-!
# C32 and C33: caps word
-/

namespace Verif.CapsWord

/-! ## C32 -/

/-- The keyboard usages that continue a word: letters, digits typed without shift, backspace, delete, the
minus/underscore key, the shift keys, and a key that is only modifiers (usage 0). -/
def WordKey (kc mods : Byte) : Prop :=
  (0x04 ≤ kc.toNat ∧ kc.toNat ≤ 0x1D) ∨
  (0x1E ≤ kc.toNat ∧ kc.toNat ≤ 0x27 ∧ mods.getLsbD 1 = false ∧ mods.getLsbD 5 = false) ∨
  kc.toNat ∈ [0x2A, 0x4C, 0x2D, 0xE1, 0xE5, 0x00]

theorem shifted_iff (m : Byte) : Mods.hasModifiers m (Mods.union 0x02 0x20) = (m.getLsbD 1 || m.getLsbD 5) := by
  revert m
  exact forall_byte (by decide +kernel)

theorem exits_iff (kc mods : Byte) : exits kc mods = false ↔ WordKey kc mods := by
  have key : ∀ kc : Byte, ∀ b1 b2 : Bool,
      ((if 0x04 ≤ kc ∧ kc ≤ 0x1D then false
        else if (0x1E ≤ kc ∧ kc ≤ 0x27) ∧ (b1 || b2) = false then false
        else if kc = 0x2A then false
        else if kc = 0x2D then false
        else if kc = 0x4C then false
        else if kc = 0xE1 then false
        else if kc = 0xE5 then false
        else if kc = 0x00 then false
        else true) = false) ↔
      ((0x04 ≤ kc.toNat ∧ kc.toNat ≤ 0x1D) ∨ (0x1E ≤ kc.toNat ∧ kc.toNat ≤ 0x27 ∧ b1 = false ∧ b2 = false) ∨
        kc.toNat ∈ [0x2A, 0x4C, 0x2D, 0xE1, 0xE5, 0x00]) := by
    apply forall_byte
    decide +kernel
  have := key kc (mods.getLsbD 1) (mods.getLsbD 5)
  unfold exits WordKey
  simp only [shifted_iff]
  exact this

/-- C32: while caps word is active, a resolved key leaves it active and emits nothing if the key continues
the word, and otherwise ends it and releases the virtual shift. For all codes and modifiers. -/
theorem C32_word_keys (i : Nat) (kc mods : Byte) :
    (WordKey kc mods → Ctx.handleEvent ⟨true⟩ (.keymap (.resolved i ⟨.keyboard kc, mods⟩)) = (⟨true⟩, [])) ∧
    (¬ WordKey kc mods → Ctx.handleEvent ⟨true⟩ (.keymap (.resolved i ⟨.keyboard kc, mods⟩)) =
      (⟨false⟩, [SchEv.imm (.input (.vrelease shift))])) := by
  rw [← exits_iff]
  constructor
  · intro h; simp [Ctx.handleEvent, h]
  · intro h; simp [Ctx.handleEvent, h]

/-- C32: keys that are not keyboard keys (consumer, custom, mouse) never end caps word. -/
theorem C32_other_usages (i : Nat) (u : KeyUsage) (mods : Byte) (hu : ∀ kc, u ≠ .keyboard kc) (c : Ctx) :
    c.handleEvent (.keymap (.resolved i ⟨u, mods⟩)) = (c, []) := by
  cases u with
  | keyboard kc => exact absurd rfl (hu kc)
  | consumer uc => rfl
  | custom cc => rfl
  | mouse mo => rfl

/-- C32: nothing but a resolved key or the caps word key itself changes caps word. -/
theorem C32_only_keys (c : Ctx) (e : Event Ev) (h1 : ∀ i ko, e ≠ .keymap (.resolved i ko)) (h2 : ∀ i x, e ≠ .key i x) :
    c.handleEvent e = (c, []) := by
  rcases e with _ | ⟨i, x⟩ | (_ | ⟨i, ko⟩)
  · rfl
  · exact absurd rfl (h2 i x)
  · rfl
  · exact absurd rfl (h1 i ko)

/-! ## C33 -/

/-- The caps word context after some events, and all it emitted. -/
def feed (c : Ctx) : List (Event Ev) → Ctx × KeyEvents Ev
  | [] => (c, [])
  | e :: es =>
    let r := c.handleEvent e
    let rest := feed r.1 es
    (rest.1, r.2 ++ rest.2)

/-- The caps word keys among the events act as their press decides: the event a caps word key emits
depends on the state at that time (`C33_key`). -/
def Consistent (c : Ctx) : List (Event Ev) → Prop
  | [] => True
  | e :: es => (∀ i x, e = .key i x → x = if c.active then .disable else .enable) ∧ Consistent (c.handleEvent e).1 es

/-- The events emitted alternate between pressing and releasing the virtual shift key, starting with a
press unless shift is down, and shift is down at the end iff `fin`. -/
def Alternates (down fin : Bool) : KeyEvents Ev → Prop
  | [] => down = fin
  | e :: es => e = SchEv.imm (.input (if down then .vrelease shift else .vpress shift)) ∧ Alternates (!down) fin es

/-- C33: pressing the caps word key emits the event that toggles the present state. -/
theorem C33_key (c : Ctx) (idx : Nat) :
    newPressedKey c idx = [SchEv.imm (.key idx (if c.active then .disable else .enable))] := rfl

theorem Alternates.append {a b c : Bool} {es fs : KeyEvents Ev} (h : Alternates a b es) (h' : Alternates b c fs) :
    Alternates a c (es ++ fs) := by
  induction es generalizing a with
  | nil => simp only [Alternates] at h; subst h; exact h'
  | cons e es ih => exact ⟨h.1, ih h.2⟩

/-- C33: whatever events come, virtual shift presses and releases alternate, and shift is down exactly
while caps word is active. -/
theorem C33_balance (c : Ctx) (evs : List (Event Ev)) (hc : Consistent c evs) :
    Alternates c.active (feed c evs).1.active (feed c evs).2 := by
  induction evs generalizing c with
  | nil => rfl
  | cons e es ih =>
    obtain ⟨h1, h2⟩ := hc
    refine Alternates.append ?_ (ih _ h2)
    obtain ⟨act⟩ := c
    rcases e with _ | ⟨i, x⟩ | (_ | ⟨i, ⟨u, m⟩⟩)
    · rfl
    · have := h1 i x rfl
      subst this
      cases act
      · exact ⟨rfl, rfl⟩
      · exact ⟨rfl, rfl⟩
    · rfl
    · cases u with
      | keyboard kc =>
        cases act with
        | false => rfl
        | true =>
          simp only [Ctx.handleEvent]
          by_cases hx : exits kc m = true
          · rw [if_pos hx]; exact ⟨rfl, rfl⟩
          · rw [if_neg hx]; rfl
      | consumer uc => cases act <;> rfl
      | custom cc => cases act <;> rfl
      | mouse mo => cases act <;> rfl

/-! ## Examples -/

/-- Caps word, "a", "1", "-", space: ended by the space; a later space does nothing. -/
example : feed Ctx.new [.key 9 .enable, .keymap (.resolved 0 (KeyOutput.fromKeyCode 0x04)), .keymap (.resolved 1 (KeyOutput.fromKeyCode 0x1E)),
    .keymap (.resolved 2 (KeyOutput.fromKeyCode 0x2D)), .keymap (.resolved 3 (KeyOutput.fromKeyCode 0x2C)), .keymap (.resolved 3 (KeyOutput.fromKeyCode 0x2C))] =
      (⟨false⟩, [SchEv.imm (.input (.vpress shift)), SchEv.imm (.input (.vrelease shift))]) := by decide +kernel

/-- In the keymap: caps word on, A and B typed with shift, then a tap of the caps word key releases it. -/
example : ((fun km => km.pressed) <$> run Ex.C 9 Ex.km0 [.input (.press 9), .tick, .input (.release 9), .tick, .input (.press 0), .tick]) =
    .ok [.virt shift, .key 0 (.keyboard (.keyCode 4)) .keyboard] ∧
    ((fun km => (km.pressed, km.ctx.capsWord)) <$> run Ex.C 9 Ex.km0 [.input (.press 9), .tick, .input (.release 9), .tick, .input (.press 0), .tick,
      .input (.release 0), .tick, .input (.press 9), .tick, .input (.release 9), .tick]) = .ok ([], ⟨false⟩) := by decide +kernel

end Verif.CapsWord
