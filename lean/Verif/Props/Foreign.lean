import Verif.Composite
import Verif.StdSearch

/-!
# C22, C25, C39: a waiting key is not disturbed by the other kinds of keys

While a tap-hold, tap-dance or chord key waits, the keymap handles the events that other keys have scheduled:
those of macros, layer keys, sticky modifiers and so on. Such an event, whatever it is and whichever key it is
for, leaves the waiting key and the events kept for it as they are: it is not counted as a tap, it does not
decide the key, and it does not move its deadline.
-/

namespace Verif.Comp

section

variable {K : Keys} {refs : List Ref} {S : Search}

theorem notifyAll_pend {C : Cfg Ref Ev Ctx PKS KS} {km km' : KM Ref Ev Ctx PKS KS} {ev : Event Ev} (h : notifyAll C km ev = .ok km') :
    km'.pend = km.pend := by
  unfold notifyAll at h
  obtain ⟨⟨ps, s⟩, _, h⟩ := Res.bind_eq_ok.1 h
  obtain ⟨⟨ctx, es⟩, _, h⟩ := Res.bind_eq_ok.1 h
  obtain ⟨s', _, h⟩ := Res.bind_eq_ok.1 h
  cases h
  rfl

theorem foreign {n : Nat} {km km' : KM Ref Ev Ctx PKS KS} {p : Pending Ref Ev PKS} {j : Nat} {e : Ev} (hp : km.pend = some p)
    (hu : updatePending K p.pks p.idx km.ctx p.ref (.key j e) = .ok (p.pks, none, []) ∨ ∃ k, updatePending K p.pks p.idx km.ctx p.ref (.key j e) = .panic k)
    (h : handleEvent ⟨system K, refs, S⟩ n km (.key j e) = .ok km') : km'.pend = some p := by
  cases n with
  | zero => cases h
  | succ n =>
    simp only [handleEvent, handleBody] at h
    obtain ⟨km1, h1, h⟩ := Res.bind_eq_ok.1 h
    obtain ⟨km2, h2, h⟩ := Res.bind_eq_ok.1 h
    cases h
    rw [notifyAll_pend h2]
    have hf : (km.fire (Event.key j e)).pend = some p ∧ (km.fire (Event.key j e)).ctx = km.ctx := by
      unfold KM.fire
      split <;> (try split) <;> exact ⟨hp, rfl⟩
    unfold Verif.updatePending at h1
    rw [hf.1, hf.2] at h1
    simp only at h1
    obtain ⟨⟨pks, npk, es⟩, h3, h1⟩ := Res.bind_eq_ok.1 h1
    rw [show (system K).updatePending p.pks p.idx km.ctx p.ref (.key j e) = updatePending K p.pks p.idx km.ctx p.ref (.key j e) from rfl] at h3
    rcases hu with hu | ⟨k, hu⟩
    · rw [hu] at h3
      cases h3
      obtain ⟨s, _, h1⟩ := Res.bind_eq_ok.1 h1
      cases h1
      rfl
    · rw [hu] at h3
      cases h3

/-- C25: an event of another kind of key leaves a waiting tap-dance key as it is; it is not a tap. -/
theorem C25_others {n : Nat} {km km' : KM Ref Ev Ctx PKS KS} {p : Pending Ref Ev PKS} {q : TapDance.PKS} (hp : km.pend = some p)
    (hq : p.pks = .tapDance q) {j : Nat} {e : Ev} (he : ∀ t, e ≠ .tapDance t) (h : handleEvent ⟨system K, refs, S⟩ n km (.key j e) = .ok km') :
    km'.pend = some p := by
  refine foreign hp ?_ h
  rw [hq]
  unfold updatePending
  cases p.ref <;> first
    | exact .inr ⟨_, rfl⟩
    | (left; cases e <;> first | rfl | exact absurd rfl (he _))

/-- C22: an event of another kind of key leaves a waiting tap-hold key as it is. -/
theorem C22_others {n : Nat} {km km' : KM Ref Ev Ctx PKS KS} {p : Pending Ref Ev PKS} {q : TapHold.PKS} (hp : km.pend = some p)
    (hq : p.pks = .tapHold q) {j : Nat} {e : Ev} (he : ∀ t, e ≠ .tapHold t) (h : handleEvent ⟨system K, refs, S⟩ n km (.key j e) = .ok km') :
    km'.pend = some p := by
  refine foreign hp ?_ h
  rw [hq]
  unfold updatePending
  cases p.ref <;> first
    | exact .inr ⟨_, rfl⟩
    | (left; cases e <;> first | rfl | exact absurd rfl (he _))

/-- C39: an event of another kind of key leaves a waiting chord key as it is. -/
theorem C39_others {n : Nat} {km km' : KM Ref Ev Ctx PKS KS} {p : Pending Ref Ev PKS} {q : Chorded.PKS} (hp : km.pend = some p)
    (hq : p.pks = .chorded q) {j : Nat} {e : Ev} (he : ∀ t, e ≠ .chorded t) (h : handleEvent ⟨system K, refs, S⟩ n km (.key j e) = .ok km') :
    km'.pend = some p := by
  refine foreign hp ?_ h
  rw [hq]
  unfold updatePending
  cases p.ref <;> first
    | exact .inr ⟨_, rfl⟩
    | (left; cases e <;> first | rfl | exact absurd rfl (he _))

end

/-! ## A waiting key and a macro that runs -/

namespace ForeignDemo

/-- A string macro, and a tap-dance, a tap-hold and a chord key. -/
def K : Keys where
  automation := [⟨⟨0, 4⟩, ⟨0, 0⟩, ⟨0, 0⟩⟩]
  tapDance := [⟨[some (.keyboard (.keyCode 5)), some (.keyboard (.keyCode 6))]⟩]
  tapHold := [⟨.keyboard (.keyCode 7), .keyboard (.keyCode 8)⟩]
  chorded := [⟨[(0, .keyboard (.keyCode 30))], .keyboard (.keyCode 9)⟩]
  chordedAux := [.keyboard (.keyCode 10)]

def refs : List Ref := [.automation 0, .tapDance 0, .tapHold 0, .chorded (.chorded 0), .chorded (.auxiliary 0)]

def config : Config where
  automation := ⟨[.tap (KeyOutput.fromKeyCode 4), .tap (KeyOutput.fromKeyCode 5), .tap (KeyOutput.fromKeyCode 4), .tap (KeyOutput.fromKeyCode 5)], 10⟩
  chorded := ⟨200, [[3, 4]], none, 2, 4⟩
  sticky := .onModifiedKeyRelease
  tapDance := ⟨200⟩
  tapHold := ⟨200, .ignore, none⟩
  layerCount := 0
  maxChords := 1

/-- The macro key is pressed, then key `i`. -/
def waits (i : Nat) : Res (KM Ref Ev Ctx PKS KS) :=
  run ⟨system K, refs, Search.std⟩ 20 (KM.new (Ctx.fromConfig config)) [.input (.press 0), .tick, .input (.press i), .tick, .tick]

/-- What waits, before and after the next event of the macro. -/
def beforeAfter (i : Nat) : Res (Option (Pending Ref Ev PKS) × Option (Pending Ref Ev PKS)) := do
  let km ← waits i
  let km' ← handleEvent ⟨system K, refs, Search.std⟩ 20 km (.key 0 (.automation .nextInstruction))
  pure (km.pend, km'.pend)

/-- A tap-dance, a tap-hold and a chord key waiting; the macro goes on. -/
example : beforeAfter 1 = .ok (some ⟨1, .tapDance 0, .tapDance ⟨0⟩, []⟩, some ⟨1, .tapDance 0, .tapDance ⟨0⟩, []⟩) := by decide +kernel

example : beforeAfter 2 = .ok (some ⟨2, .tapHold 0, .tapHold ⟨none⟩, []⟩, some ⟨2, .tapHold 0, .tapHold ⟨none⟩, []⟩) := by decide +kernel

example : beforeAfter 3 = .ok (some ⟨3, .chorded (.chorded 0), .chorded ⟨[3], [⟨0, [3, 4], false⟩]⟩, []⟩,
    some ⟨3, .chorded (.chorded 0), .chorded ⟨[3], [⟨0, [3, 4], false⟩]⟩, []⟩) := by decide +kernel

end ForeignDemo

end Verif.Comp
