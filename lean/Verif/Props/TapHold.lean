import Verif.Composite
import Verif.Lemmas.List

/-!
# C22 and C24: what a tap-hold key decides
-/

namespace Verif.TapHold

/-! ## Specification -/

/-- The decision of a key that waits in state `p` while the events `evs` arrive: the first one made. -/
def decision (c : Ctx) (idx : Nat) : PKS → List (Event Ev) → Option State
  | _, [] => none
  | p, e :: es =>
    match p.handleEvent c idx e with
    | (_, some s) => some s
    | (p', none) => decision c idx p' es

/-- The key pressed last among these events. -/
def lastPress (es : List (Event Ev)) : Option Nat :=
  (es.filterMap fun | .input (.press k) => some k | _ => none).getLast?

/-- The reasons to decide "hold" at event `e` after the events `pre`: the timeout; a key press, for keys
configured that way; the release of the key pressed last, for keys configured that way. -/
inductive HoldsAt (ir : InterruptResponse) (idx : Nat) (pre : List (Event Ev)) : Event Ev → Prop where
  | timeout (i : Nat) : HoldsAt ir idx pre (.key i .timeout)
  | press (k : Nat) : ir = .holdOnKeyPress → HoldsAt ir idx pre (.input (.press k))
  | tap (k : Nat) : ir = .holdOnKeyTap → k ≠ idx → lastPress pre = some k → HoldsAt ir idx pre (.input (.release k))

/-- The same, with the claim of the documentation for `HoldOnKeyTap`: any key tapped while waiting. -/
inductive HoldsAtDoc (ir : InterruptResponse) (idx : Nat) (pre : List (Event Ev)) : Event Ev → Prop where
  | timeout (i : Nat) : HoldsAtDoc ir idx pre (.key i .timeout)
  | press (k : Nat) : ir = .holdOnKeyPress → HoldsAtDoc ir idx pre (.input (.press k))
  | tap (k : Nat) : ir = .holdOnKeyTap → k ≠ idx → .input (.press k) ∈ pre → HoldsAtDoc ir idx pre (.input (.release k))

/-- Neither "hold" nor the key's own release happened among `pre`. -/
def Open (H : List (Event Ev) → Event Ev → Prop) (idx : Nat) (pre : List (Event Ev)) : Prop :=
  ∀ p1 e p2, pre = p1 ++ e :: p2 → ¬ H p1 e ∧ e ≠ .input (.release idx)

/-! ## Proofs -/

theorem lastPress_press (es : List (Event Ev)) (k : Nat) : lastPress (es ++ [.input (.press k)]) = some k := by
  simp [lastPress]

theorem lastPress_other (es : List (Event Ev)) (e : Event Ev) (h : ∀ k, e ≠ .input (.press k)) :
    lastPress (es ++ [e]) = lastPress es := by
  rcases e with (k | _ | _ | _) | _ | _ <;> simp_all [lastPress]

theorem holdsAt_press {ir : InterruptResponse} {idx k : Nat} {pre : List (Event Ev)} :
    HoldsAt ir idx pre (.input (.press k)) ↔ ir = .holdOnKeyPress :=
  ⟨fun h => by cases h; assumption, fun h => .press k h⟩
theorem holdsAt_release {ir : InterruptResponse} {idx k : Nat} {pre : List (Event Ev)} :
    HoldsAt ir idx pre (.input (.release k)) ↔ ir = .holdOnKeyTap ∧ k ≠ idx ∧ lastPress pre = some k :=
  ⟨fun h => by cases h; exact ⟨‹_›, ‹_›, ‹_›⟩, fun h => .tap k h.1 h.2.1 h.2.2⟩
theorem holdsAt_virtual {ir : InterruptResponse} {idx : Nat} {pre : List (Event Ev)} {ko : KeyOutput} :
    ¬ HoldsAt ir idx pre (.input (.vpress ko)) ∧ ¬ HoldsAt ir idx pre (.input (.vrelease ko)) :=
  ⟨(fun h => by cases h), (fun h => by cases h)⟩
theorem holdsAt_keymap {ir : InterruptResponse} {idx : Nat} {pre : List (Event Ev)} {e : KeymapEvent} :
    ¬ HoldsAt ir idx pre (.keymap e) := fun h => by cases h
theorem holdsAt_key {ir : InterruptResponse} {idx k : Nat} {pre : List (Event Ev)} {e : Ev} :
    HoldsAt ir idx pre (.key k e) := by cases e; exact .timeout k

/-- One event, in terms of the specification. -/
theorem handleEvent_spec (c : Ctx) (idx : Nat) (p : PKS) (pre : List (Event Ev)) (e : Event Ev)
    (hp : p.otherPressed = lastPress pre) :
    (p.handleEvent c idx e).1.otherPressed = lastPress (pre ++ [e]) ∧
    ((p.handleEvent c idx e).2 = some .hold ↔ HoldsAt c.config.interruptResponse idx pre e) ∧
    ((p.handleEvent c idx e).2 = some .tap ↔ e = .input (.release idx)) := by
  refine ⟨?_, ?_⟩
  · rcases e with (k | k | _ | _) | _ | _
    · simp [PKS.handleEvent, lastPress_press]
    all_goals rw [lastPress_other _ _ (by simp), ← hp]; rfl
  · rcases e with (k | k | _ | _) | ⟨k, _ | _⟩ | _
    · rw [holdsAt_press]
      cases hi : c.config.interruptResponse <;> simp [PKS.handleEvent, PKS.holdResolution, hi]
    · rw [holdsAt_release, ← hp]
      have sy : idx = k ↔ k = idx := eq_comm
      cases hi : c.config.interruptResponse <;> simp only [PKS.handleEvent, PKS.holdResolution, hi, sy] <;>
        by_cases h1 : k = idx <;> simp [h1]
      exact eq_comm
    · simp only [holdsAt_virtual.1]
      cases hi : c.config.interruptResponse <;> simp [PKS.handleEvent, PKS.holdResolution, hi]
    · simp only [holdsAt_virtual.2]
      cases hi : c.config.interruptResponse <;> simp [PKS.handleEvent, PKS.holdResolution, hi]
    · simp only [holdsAt_key]
      cases hi : c.config.interruptResponse <;> simp [PKS.handleEvent, PKS.holdResolution, hi]
    · simp only [holdsAt_keymap]
      cases hi : c.config.interruptResponse <;> simp [PKS.handleEvent, PKS.holdResolution, hi]

theorem open_nil (H : List (Event Ev) → Event Ev → Prop) (idx : Nat) : Open H idx [] := by
  intro p1 e p2 h; simp at h

theorem open_snoc {H : List (Event Ev) → Event Ev → Prop} {idx : Nat} {pre : List (Event Ev)} {e : Event Ev}
    (h : Open H idx pre) (h1 : ¬ H pre e) (h2 : e ≠ .input (.release idx)) : Open H idx (pre ++ [e]) := by
  intro p1 x p2 hx
  rcases List.eq_nil_or_concat p2 with rfl | ⟨q, y, rfl⟩
  · have := List.append_inj' hx rfl
    simp only [List.cons.injEq, and_true] at this
    obtain ⟨rfl, rfl⟩ := this
    exact ⟨h1, h2⟩
  · have : pre ++ [e] = (p1 ++ x :: q) ++ [y] := by rw [hx]; simp [List.concat_eq_append]
    have := (List.append_inj' this rfl).1
    exact h p1 x q this

/-- Two positions of first decisions coincide. -/
theorem open_unique {H : List (Event Ev) → Event Ev → Prop} {idx : Nat} {a b c d : List (Event Ev)} {x y : Event Ev}
    (h : a ++ x :: b = c ++ y :: d) (ha : Open H idx a) (hc : Open H idx c)
    (hx : H a x ∨ x = .input (.release idx)) (hy : H c y ∨ y = .input (.release idx)) : a = c ∧ x = y := by
  rcases List.append_eq_append_iff.1 h with ⟨z, h1, h2⟩ | ⟨z, h1, h2⟩
  · cases z with
    | nil => simp at h1 h2; exact ⟨h1.symm, h2.1⟩
    | cons w z =>
      exfalso
      simp only [List.cons_append, List.cons.injEq] at h2
      obtain ⟨rfl, h2⟩ := h2
      have := hc a x z h1
      rcases hx with hx | hx
      · exact this.1 hx
      · exact this.2 hx
  · cases z with
    | nil => simp at h1 h2; exact ⟨h1, h2.1.symm⟩
    | cons w z =>
      exfalso
      simp only [List.cons_append, List.cons.injEq] at h2
      obtain ⟨rfl, h2⟩ := h2
      have := ha c y z h1
      rcases hy with hy | hy
      · exact this.1 hy
      · exact this.2 hy

theorem decision_spec (c : Ctx) (idx : Nat) (p : PKS) (pre evs : List (Event Ev)) (hp : p.otherPressed = lastPress pre)
    (ho : Open (HoldsAt c.config.interruptResponse idx) idx pre) :
    (∀ s, decision c idx p evs = some s → ∃ mid e post, evs = mid ++ e :: post ∧
      Open (HoldsAt c.config.interruptResponse idx) idx (pre ++ mid) ∧
      ((s = .hold ∧ HoldsAt c.config.interruptResponse idx (pre ++ mid) e) ∨ (s = .tap ∧ e = .input (.release idx)))) ∧
    (decision c idx p evs = none → Open (HoldsAt c.config.interruptResponse idx) idx (pre ++ evs)) := by
  induction evs generalizing p pre with
  | nil => exact ⟨fun s h => by simp [decision] at h, fun _ => by simpa using ho⟩
  | cons e es ih =>
    obtain ⟨h1, h2, h3⟩ := handleEvent_spec c idx p pre e hp
    unfold decision
    split
    · rename_i p' s hs
      refine ⟨fun s' h => ⟨[], e, es, rfl, by simpa using ho, ?_⟩, fun h => by cases h⟩
      cases h
      rw [hs] at h2 h3
      cases s with
      | hold => exact Or.inl ⟨rfl, by simpa using h2.1 rfl⟩
      | tap => exact Or.inr ⟨rfl, h3.1 rfl⟩
    · rename_i p' hs
      rw [hs] at h1 h2 h3
      have ho' := open_snoc ho (fun h => by have := h2.2 h; simp at this) (fun h => by have := h3.2 h; simp at this)
      obtain ⟨ih1, ih2⟩ := ih p' (pre ++ [e]) h1 ho'
      refine ⟨fun s h => ?_, fun h => by simpa using ih2 h⟩
      obtain ⟨mid, x, post, rfl, hm, hr⟩ := ih1 s h
      exact ⟨e :: mid, x, post, rfl, by simpa using hm, by simpa using hr⟩

/-! ## The theorems -/

/-- C22: a tap-hold key decides "hold" iff a reason to hold comes first: before any other reason and
before its own release. -/
theorem C22_hold (c : Ctx) (idx : Nat) (evs : List (Event Ev)) :
    decision c idx PKS.new evs = some .hold ↔
      ∃ pre e post, evs = pre ++ e :: post ∧ HoldsAt c.config.interruptResponse idx pre e ∧
        Open (HoldsAt c.config.interruptResponse idx) idx pre := by
  have key := decision_spec c idx PKS.new [] evs rfl (open_nil _ _)
  simp only [List.nil_append] at key
  constructor
  · intro h
    obtain ⟨mid, e, post, h1, h2, (⟨_, h3⟩ | ⟨h3, _⟩)⟩ := key.1 _ h
    · exact ⟨mid, e, post, h1, h3, h2⟩
    · cases h3
  · rintro ⟨pre, e, post, rfl, h1, h2⟩
    cases hd : decision c idx PKS.new (pre ++ e :: post) with
    | none => exact absurd h1 (key.2 hd pre e post rfl).1
    | some s =>
      obtain ⟨mid, x, post', h3, h4, h5⟩ := key.1 _ hd
      have := open_unique h3 h2 h4 (Or.inl h1) (by rcases h5 with h | h; exact Or.inl h.2; exact Or.inr h.2)
      obtain ⟨rfl, rfl⟩ := this
      rcases h5 with h5 | h5
      · rw [h5.1]
      · exfalso
        rw [h5.2] at h1
        cases h1 with
        | tap _ _ h _ => exact h rfl

/-- C22: it decides "tap" iff its own release comes before any reason to hold. -/
theorem C22_tap (c : Ctx) (idx : Nat) (evs : List (Event Ev)) :
    decision c idx PKS.new evs = some .tap ↔
      ∃ pre post, evs = pre ++ .input (.release idx) :: post ∧
        Open (HoldsAt c.config.interruptResponse idx) idx pre := by
  have key := decision_spec c idx PKS.new [] evs rfl (open_nil _ _)
  simp only [List.nil_append] at key
  constructor
  · intro h
    obtain ⟨mid, e, post, h1, h2, (⟨h3, _⟩ | ⟨_, h3⟩)⟩ := key.1 _ h
    · cases h3
    · subst h3; exact ⟨mid, post, h1, h2⟩
  · rintro ⟨pre, post, rfl, h2⟩
    cases hd : decision c idx PKS.new (pre ++ .input (.release idx) :: post) with
    | none => exact absurd rfl (key.2 hd pre _ post rfl).2
    | some s =>
      obtain ⟨mid, x, post', h3, h4, h5⟩ := key.1 _ hd
      have := open_unique h3 h2 h4 (Or.inr rfl) (by rcases h5 with h | h; exact Or.inl h.2; exact Or.inr h.2)
      obtain ⟨rfl, rfl⟩ := this
      rcases h5 with h5 | h5
      · exfalso
        have h1 := h5.2
        cases h1 with
        | tap _ _ h _ => exact h rfl
      · rw [h5.1]

/-- C22: it stays undecided exactly as long as neither happens. -/
theorem C22_undecided (c : Ctx) (idx : Nat) (evs : List (Event Ev)) :
    decision c idx PKS.new evs = none ↔ Open (HoldsAt c.config.interruptResponse idx) idx evs := by
  have key := decision_spec c idx PKS.new [] evs rfl (open_nil _ _)
  simp only [List.nil_append] at key
  refine ⟨key.2, fun h => ?_⟩
  cases hd : decision c idx PKS.new evs with
  | none => rfl
  | some s =>
    obtain ⟨mid, x, post, h3, h4, h5⟩ := key.1 _ hd
    have := h mid x post h3
    rcases h5 with h5 | h5
    · exact absurd h5.2 this.1
    · exact absurd h5.2 this.2

/-- C22, with the claim of the documentation for `HoldOnKeyTap`: "hold" iff, before the key's own
release, the timeout fired, another key was pressed (`HoldOnKeyPress`), or another key was pressed and
released (`HoldOnKeyTap`). -/
def C22_full : Prop :=
  ∀ (c : Ctx) (idx : Nat) (evs : List (Event Ev)), decision c idx PKS.new evs = some .hold ↔
    ∃ pre e post, evs = pre ++ e :: post ∧ HoldsAtDoc c.config.interruptResponse idx pre e ∧
      Open (HoldsAtDoc c.config.interruptResponse idx) idx pre

/-- For the two other settings the documented rule is the implemented one. -/
theorem holdsAtDoc_iff {ir : InterruptResponse} (h : ir ≠ .holdOnKeyTap) (idx : Nat) (pre : List (Event Ev)) (e : Event Ev) :
    HoldsAtDoc ir idx pre e ↔ HoldsAt ir idx pre e := by
  constructor
  · rintro (_ | ⟨_, h1⟩ | ⟨_, h1⟩)
    · exact .timeout _
    · exact .press _ h1
    · exact absurd h1 h
  · rintro (_ | ⟨_, h1⟩ | ⟨_, h1⟩)
    · exact .timeout _
    · exact .press _ h1
    · exact absurd h1 h

/-- C22 as documented, for `Ignore` and `HoldOnKeyPress`. -/
theorem C22_documented_partial (c : Ctx) (idx : Nat) (evs : List (Event Ev))
    (h : c.config.interruptResponse ≠ .holdOnKeyTap) :
    decision c idx PKS.new evs = some .hold ↔
      ∃ pre e post, evs = pre ++ e :: post ∧ HoldsAtDoc c.config.interruptResponse idx pre e ∧
        Open (HoldsAtDoc c.config.interruptResponse idx) idx pre := by
  rw [C22_hold]
  have e1 : HoldsAtDoc c.config.interruptResponse idx = HoldsAt c.config.interruptResponse idx := by
    funext pre e; exact propext (holdsAtDoc_iff h idx pre e)
  rw [e1]

/-- C22, full claim, is false: with `HoldOnKeyTap`, pressing B, pressing C and releasing B does not
decide "hold", as only the key pressed last is remembered. -/
theorem C22_refuted : ¬ C22_full := by
  intro h
  have h1 := (h ⟨⟨200, .holdOnKeyTap, none⟩, 0⟩ 0
    [.input (.press 1), .input (.press 2), .input (.release 1), .input (.release 0)]).2
    ⟨[.input (.press 1), .input (.press 2)], .input (.release 1), [.input (.release 0)], rfl,
      .tap 1 rfl (by decide) (by decide), ?_⟩
  · exact absurd h1 (by decide)
  · intro p1 e p2 hp
    match p1, hp with
    | [], hp =>
      simp at hp; obtain ⟨rfl, _⟩ := hp
      exact ⟨(fun h => by cases h with | press _ h => cases h), by simp⟩
    | [_], hp =>
      simp at hp; obtain ⟨rfl, rfl, _⟩ := hp
      exact ⟨(fun h => by cases h with | press _ h => cases h), by simp⟩
    | _ :: _ :: _, hp => simp at hp

/-- C22, the key: the decision is what the key stands for from then on, and nothing is emitted. -/
theorem C22_key {R : Type} {keys : List (Key R)} {p p' : PKS} {idx i : Nat} {c : Ctx} {ev : Event Ev}
    {npk : Option (NPK R)} {es : KeyEvents Ev} (h : updatePending keys p idx c i ev = .ok (p', npk, es)) :
    es = [] ∧ p' = (p.handleEvent c idx ev).1 ∧
    (npk = none ↔ (p.handleEvent c idx ev).2 = none) ∧
    ((p.handleEvent c idx ev).2 = some .tap → ∃ k, keys[i]? = some k ∧ npk = some (.key k.tap)) ∧
    ((p.handleEvent c idx ev).2 = some .hold → ∃ k, keys[i]? = some k ∧ npk = some (.key k.hold)) := by
  unfold updatePending at h
  generalize p.handleEvent c idx ev = x at h ⊢
  obtain ⟨q, st⟩ := x
  cases st with
  | none => simp only [Res.ok.injEq, Prod.mk.injEq] at h; obtain ⟨rfl, rfl, rfl⟩ := h; simp
  | some st =>
    simp only [Res.bind_eq_ok, Res.index_eq_ok, Res.pure_eq, Res.ok.injEq, Prod.mk.injEq] at h
    obtain ⟨k, hk, rfl, rfl, rfl⟩ := h
    cases st <;> simp [hk]

/-- C24: a tap-hold key is its tap key at once iff it requires idle time and less has passed;
otherwise it waits for a decision, with a timeout of its own. -/
theorem C24_required_idle {R : Type} (keys : List (Key R)) (k : Key R) (idx i : Nat) (c : Ctx)
    (hk : keys[i]? = some k) :
    (∀ r, c.config.requiredIdleTime = some r → c.idle < r → newPressedKey keys idx c i = .ok (.key k.tap, [])) ∧
    ((∀ r, c.config.requiredIdleTime = some r → r ≤ c.idle) →
      newPressedKey keys idx c i =
        .ok (.pending PKS.new, [SchEv.after c.config.timeout (.key idx .timeout)])) := by
  refine ⟨fun r hr hlt => ?_, fun h => ?_⟩
  · unfold newPressedKey
    rw [hr]
    simp only
    rw [if_neg (by omega)]
    simp [Res.index, hk]
  · unfold newPressedKey
    cases hr : c.config.requiredIdleTime with
    | none => rfl
    | some r =>
      simp only
      rw [if_pos (h r hr)]
      rfl

/-! ## The hypotheses can be met -/

example : decision ⟨⟨200, .ignore, none⟩, 0⟩ 2 PKS.new
    [.input (.press 1), .input (.release 1), .key 2 .timeout, .input (.release 2)] = some .hold := by decide
example : decision ⟨⟨200, .ignore, none⟩, 0⟩ 2 PKS.new
    [.input (.press 1), .input (.release 1), .input (.release 2), .key 2 .timeout] = some .tap := by decide
example : decision ⟨⟨200, .holdOnKeyTap, none⟩, 0⟩ 2 PKS.new
    [.input (.release 3), .input (.press 1), .input (.release 1), .input (.release 2)] = some .hold := by decide
example : decision ⟨⟨200, .holdOnKeyPress, none⟩, 0⟩ 2 PKS.new
    [.input (.release 3), .input (.press 1), .input (.release 2)] = some .hold := by decide
example : newPressedKey [⟨7, 8⟩] 2 ⟨⟨200, .ignore, some 100⟩, 99⟩ 0 = .ok (.key 7, []) := by decide
example : newPressedKey [⟨7, 8⟩] 2 ⟨⟨200, .ignore, some 100⟩, 100⟩ 0 =
    .ok (.pending PKS.new, [SchEv.after 200 (.key 2 .timeout)]) := by decide

end Verif.TapHold
