import Verif.Spec.Rtic
import Verif.RticSplit
import Verif.Spec.Keyboard

/-!
# Words for the halves of a split keyboard with RTIC
-/

namespace Verif.RticSplit

open Verif.Rtic

/-- `zs` is made of the entries of `xs` and of `ys`, each in its order. -/
inductive Merge {α : Type} : List α → List α → List α → Prop where
  | nil : Merge [] [] []
  | left {xs ys zs : List α} {x : α} : Merge xs ys zs → Merge (xs ++ [x]) ys (zs ++ [x])
  | right {xs ys zs : List α} {y : α} : Merge xs ys zs → Merge xs (ys ++ [y]) (zs ++ [y])

/-- The bytes that arrive. -/
def bytesOf (is : List Input) : List Byte :=
  is.filterMap fun | .byte b => some b | _ => none

/-- The events among the messages. -/
def eventsOf (ms : List Msg) : List InputEvent :=
  ms.filterMap fun | .event e => some e | .tick => none

section

variable {R Ev Ctx PKS KS : Type} (C : Cfg R Ev Ctx PKS KS) (n : Nat) (indices : List (List (Option Nat)))

/-- There is room in the keymap for each key event: not more than 30 wait when it comes. -/
def Roomy (s : Half R Ev Ctx PKS KS) : List Input → Prop
  | [] => True
  | i :: is =>
    ((∃ a b c d, i = .layout a b c d) → (∃ e q, s.queue = .event e :: q) → s.backend.km.inq.length < 31) ∧
    ∀ s', s.step C n indices i = .ok s' → Roomy s' is

/-- The driver says `Duplicate` only to a report that is the one it has accepted last. `make` is the report it makes of key codes. -/
def Lawful {Rep : Type} (make : List Byte → Rep) (s : Half R Ev Ctx PKS KS) : List Input → Prop
  | [] => True
  | i :: is =>
    ((∃ c d, i = .layout true .duplicate c d) → (∃ q, s.queue = .tick :: q) →
      ∀ core codes, advance C n s.toCore = .ok core → core.backend.out.pressedKeyCodes = .ok codes → s.sent.getLast?.map make = some (make codes)) ∧
    ∀ s', s.step C n indices i = .ok s' → Lawful make s' is

end

section

variable {R Ev Ctx PKS KS : Type} (C : Cfg R Ev Ctx PKS KS) (n : Nat) (indices : List (List (Option Nat))) (layout : List Board.Entry) (b : Board.State) (rows cols : Nat)

/-- What a half can stand. `layout` keeps up with the bytes: when one arrives, fewer than eight messages wait. The bytes are those of keys of the keymap. In a scan no
more than eight switches change. The driver does nothing but accept reports, have no room, or find a keyboard report unchanged. No more than sixteen keys are held at a
time. There is room in the keymap for each key event. -/
structure Bears (s : Half R Ev Ctx PKS KS) (i : Input) : Prop where
  keepsUp : ∀ x, i = .byte x → s.queue.length < 8
  keys : ∀ x e, i = .byte x → (Split.receiveByte s.buf x).2 = some e → ∃ k, k < layout.length ∧ (e = .press k ∨ e = .release k)
  few : ∀ raw, i = .timer raw → Size rows cols raw ∧ (s.deb.events raw).2.length ≤ 8
  answers : ∀ configured keyboard consumer mouse, i = .layout configured keyboard consumer mouse → keyboard ≠ .error ∧ (consumer = .ok ∨ consumer = .wouldBlock)
  sixteen : Keyboard.AtMostSixteen layout b (s.heard ++ eventsOf s.queue)
  room : (∃ a b c d, i = .layout a b c d) → (∃ e q, s.queue = .event e :: q) → s.backend.km.inq.length < 31

/-- In each step of a history. -/
def Bearable (s : Half R Ev Ctx PKS KS) : List Input → Prop
  | [] => True
  | i :: is => Bears layout b rows cols s i ∧ ∀ s', s.step C n indices i = .ok s' → Bearable s' is

end

/-- The switch of key `i` is closed: at one of the places of the matrix. -/
def Closed (indices : List (List (Option Nat))) (levels : Levels) (i : Nat) : Prop :=
  ∃ r c, KeyAt indices r c i ∧ entry levels r c = some true

end Verif.RticSplit
