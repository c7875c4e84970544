import Verif.Spec.Usb
import Verif.Spec.Host

/-!
# C66, C67: reports over USB
-/

namespace Verif.Usb

/-! ## Every change of a keyboard or consumer report is received, once and in order -/

theorem changes_append (z : List Byte) (xs : List (List Byte)) (x : List Byte) :
    changes z (xs ++ [x]) = changes z xs ++ (if x = xs.getLastD z then [] else [x]) := by
  induction xs generalizing z with
  | nil => simp [changes]
  | cons y ys ih =>
    have hl : (y :: ys).getLastD z = ys.getLastD y := by cases ys <;> simp [List.getLastD]
    rw [List.cons_append, changes, changes, hl, ih, ih]
    split
    · next h => rw [h]
    · rfl

/-- Where a report is on its way; `st`: where the main loop is in the block of this end-point; `D`: all the changes. -/
inductive Way (c : Chan) (D : List (List Byte)) : Option Stage → Prop where
  | idle {st} : c.pack = c.prev → c.sending = false → c.busy = false → c.ack = false → c.host = D →
    (st = none ∨ st = some .test) → Way c D st
  | todo {st} : c.pack ≠ c.prev → c.sending = false → c.busy = false → c.ack = false → c.host ++ [c.pack] = D →
    (st = none ∨ st = some .test ∨ st = some .choose ∨ st = some .load) → Way c D st
  | loaded : c.pack ≠ c.prev → c.sending = false → c.busy = false → c.ack = false → c.host ++ [c.pack] = D → c.buf = c.pack → Way c D (some .ack)
  | armed : c.pack ≠ c.prev → c.sending = false → c.ack = true → c.host ++ [c.pack] = D → c.buf = c.pack → Way c D (some .busy)
  | early : c.pack ≠ c.prev → c.sending = false → c.ack = false → c.host = D → Way c D (some .busy)
  | marked : c.pack ≠ c.prev → c.sending = false → c.ack = true → c.busy = true → c.host ++ [c.pack] = D → c.buf = c.pack → Way c D (some .mark)
  | taken : c.pack ≠ c.prev → c.sending = false → c.ack = false → c.host = D → Way c D (some .mark)
  | waiting {st} : c.pack ≠ c.prev → c.sending = true → c.ack = true → c.busy = true → c.host ++ [c.pack] = D → c.buf = c.pack →
    (st = none ∨ st = some .test ∨ st = some .choose) → Way c D st
  | received {st} : c.pack ≠ c.prev → c.sending = true → c.ack = false → c.host = D →
    (st = none ∨ st = some .test ∨ st = some .choose) → Way c D st
  | copying {i} : c.sending = true → c.ack = false → c.busy = false → c.host = D → c.prev.length = c.pack.length → i ≤ c.pack.length →
    c.prev.take i = c.pack.take i → Way c D (some (.copy i))

theorem take_set_succ {a b : List Byte} {i : Nat} (hl : a.length = b.length) (hi : i < b.length) (h : a.take i = b.take i) :
    (a.set i b[i]).take (i + 1) = b.take (i + 1) := by
  apply List.ext_getElem?
  intro j
  have hj : ∀ k, k < i → a[k]? = b[k]? := fun k hk => by
    have := congrArg (·[k]?) h
    simpa [List.getElem?_take, hk] using this
  simp only [List.getElem?_take, List.getElem?_set]
  by_cases h1 : j < i + 1
  · rw [if_pos h1, if_pos h1]
    by_cases h2 : i = j
    · subst h2; rw [if_pos rfl, if_pos (by omega)]; exact (List.getElem?_eq_getElem hi).symm
    · rw [if_neg h2]; exact hj j (by omega)
  · rw [if_neg h1, if_neg h1]

theorem Way.step {c : Chan} {D : List (List Byte)} {st : Stage} (hl : c.prev.length = c.pack.length) (h : Way c D (some st)) :
    Way (c.step false st).1 D (c.step false st).2 := by
  cases h with
  | idle h1 h2 h3 h4 h5 h6 =>
    rcases h6 with h6 | h6
    · cases h6
    · cases h6
      have : (c.step false .test) = (c, none) := by simp [Chan.step, h1]
      rw [this]; exact .idle h1 h2 h3 h4 h5 (.inl rfl)
  | todo h1 h2 h3 h4 h5 h6 =>
    rcases h6 with h6 | h6 | h6 | h6 <;> cases h6
    · have : (c.step false .test) = (c, some .choose) := by simp [Chan.step, h1]
      rw [this]; exact .todo h1 h2 h3 h4 h5 (by simp)
    · have : (c.step false .choose) = (c, some .load) := by simp [Chan.step, h2, h3]
      rw [this]; exact .todo h1 h2 h3 h4 h5 (by simp)
    · exact .loaded h1 h2 h3 h4 h5 rfl
  | loaded h1 h2 h3 h4 h5 h6 => exact .armed h1 h2 rfl h5 h6
  | armed h1 h2 h3 h4 h5 => exact .marked h1 h2 h3 rfl h4 h5
  | early h1 h2 h3 h4 => exact .taken h1 h2 h3 h4
  | marked h1 h2 h3 h4 h5 h6 => exact .waiting h1 rfl h3 h4 h5 h6 (by simp [Chan.step])
  | taken h1 h2 h3 h4 => exact .received h1 rfl h3 h4 (by simp [Chan.step])
  | waiting h1 h2 h3 h4 h5 h6 h7 =>
    rcases h7 with h7 | h7 | h7 <;> cases h7
    · have : (c.step false .test) = (c, some .choose) := by simp [Chan.step, h1]
      rw [this]; exact .waiting h1 h2 h3 h4 h5 h6 (by simp)
    · have : (c.step false .choose) = (c, none) := by simp [Chan.step, h2, h4]
      rw [this]; exact .waiting h1 h2 h3 h4 h5 h6 (by simp)
  | received h1 h2 h3 h4 h5 =>
    rcases h5 with h5 | h5 | h5 <;> cases h5
    · have : (c.step false .test) = (c, some .choose) := by simp [Chan.step, h1]
      rw [this]; exact .received h1 h2 h3 h4 (by simp)
    · cases hb : c.busy with
      | true =>
        have : (c.step false .choose) = (c, none) := by simp [Chan.step, h2, hb]
        rw [this]; exact .received h1 h2 h3 h4 (by simp)
      | false =>
        have : (c.step false .choose) = (c, some (.copy 0)) := by simp [Chan.step, h2, hb]
        rw [this]; exact .copying h2 h3 hb h4 hl (by simp) (by simp)
  | @copying i h1 h2 h3 h4 h5 h6 h7 =>
    by_cases hi : i < c.pack.length
    · have : (c.step false (.copy i)) = ({ c with prev := c.prev.set i c.pack[i] }, some (.copy (i + 1))) := by simp [Chan.step, hi]
      rw [this]; exact .copying h1 h2 h3 h4 (by simpa using h5) (by exact hi) (take_set_succ h5 hi h7)
    · have : (c.step false (.copy i)) = ({ c with sending := false }, none) := by simp [Chan.step, hi]
      rw [this]
      have hi' : i = c.pack.length := by omega
      subst hi'
      refine .idle ?_ rfl h3 h2 h4 (.inl rfl)
      have := h7
      rw [← h5, List.take_length, h5, List.take_length] at this
      exact this.symm

theorem Way.poll {c : Chan} {D : List (List Byte)} {st : Option Stage} (h : Way c D st) : Way c.poll D st := by
  cases ha : c.ack with
  | false => rw [show c.poll = c by simp [Chan.poll, ha]]; exact h
  | true =>
    have : c.poll = { c with host := c.host ++ [c.buf], ack := false, busy := false } := by simp [Chan.poll, ha]
    rw [this]
    cases h with
    | idle _ _ _ h => rw [ha] at h; cases h
    | todo _ _ _ h => rw [ha] at h; cases h
    | loaded _ _ _ h => rw [ha] at h; cases h
    | armed h1 h2 h3 h4 h5 => exact .early h1 h2 rfl (by rw [h5]; exact h4)
    | early _ _ h => rw [ha] at h; cases h
    | marked h1 h2 h3 h4 h5 h6 => exact .taken h1 h2 rfl (by rw [h6]; exact h5)
    | taken _ _ h => rw [ha] at h; cases h
    | waiting h1 h2 h3 h4 h5 h6 h7 => exact .received h1 h2 rfl (by rw [h6]; exact h5) h7
    | received _ _ h => rw [ha] at h; cases h
    | copying _ h => rw [ha] at h; cases h

theorem Way.fresh {c : Chan} {D : List (List Byte)} {st : Option Stage} (h : Way c D st) (he : c.pack = c.prev) (hc : ∀ i, st ≠ some (.copy i))
    (r : List Byte) : Way { c with pack := r } (D ++ (if r = c.pack then [] else [r])) st := by
  cases h with
  | idle h1 h2 h3 h4 h5 h6 =>
    by_cases hr : r = c.pack
    · rw [if_pos hr, List.append_nil]; exact .idle (hr.trans h1) h2 h3 h4 h5 h6
    · rw [if_neg hr]
      exact .todo (fun h => hr (h.trans h1.symm)) h2 h3 h4 (by rw [h5]) (by rcases h6 with h | h <;> simp [h])
  | todo h => exact absurd he h
  | loaded h => exact absurd he h
  | armed h => exact absurd he h
  | early h => exact absurd he h
  | marked h => exact absurd he h
  | taken h => exact absurd he h
  | waiting h => exact absurd he h
  | received h => exact absurd he h
  | copying => exact absurd rfl (hc _)

theorem Way.sub {c : Chan} {D : List (List Byte)} {st : Option Stage} (h : Way c D st) : ∃ rest, c.host ++ rest = D ∧ rest.length ≤ 1 := by
  cases h with
  | idle _ _ _ _ h => exact ⟨[], by simp [h], by simp⟩
  | todo _ _ _ _ h => exact ⟨_, h, by simp⟩
  | loaded _ _ _ _ h => exact ⟨_, h, by simp⟩
  | armed _ _ _ h => exact ⟨_, h, by simp⟩
  | early _ _ _ h => exact ⟨[], by simp [h], by simp⟩
  | marked _ _ _ _ h => exact ⟨_, h, by simp⟩
  | taken _ _ _ h => exact ⟨[], by simp [h], by simp⟩
  | waiting _ _ _ _ h => exact ⟨_, h, by simp⟩
  | received _ _ _ h => exact ⟨[], by simp [h], by simp⟩
  | copying _ _ _ h => exact ⟨[], by simp [h], by simp⟩

/-- Where the main loop is in the block of this end-point. -/
def Pc.within (ep : Ep) : Pc → Option Stage
  | .top => none
  | .at e st => if e = ep then some st else none

/-- One kind of report, among the others. -/
structure Holds (c : Chan) (n : Nat) (st : Option Stage) (rs : List (List Byte)) : Prop where
  prev : c.prev.length = n
  pack : c.pack.length = n
  last : c.pack = rs.getLastD (List.replicate n 0)
  way : Way c (changes (List.replicate n 0) rs) st

theorem step_lengths (b : Bool) (c : Chan) (st : Stage) : (c.step b st).1.prev.length = c.prev.length ∧ (c.step b st).1.pack = c.pack := by
  cases st <;> simp only [Chan.step] <;> (try split) <;> (try split) <;> simp

theorem Holds.step {c : Chan} {n : Nat} {st : Stage} {rs} (h : Holds c n (some st) rs) : Holds (c.step false st).1 n (c.step false st).2 rs := by
  obtain ⟨h1, h2⟩ := step_lengths false c st
  exact ⟨h1.trans h.prev, by rw [h2]; exact h.pack, by rw [h2]; exact h.last, h.way.step (h.prev.trans h.pack.symm)⟩

theorem Holds.poll {c : Chan} {n : Nat} {st} {rs} (h : Holds c n st rs) : Holds c.poll n st rs := by
  refine ⟨?_, ?_, ?_, h.way.poll⟩ <;> simp only [Chan.poll] <;> split <;> first | exact h.prev | exact h.pack | exact h.last

theorem Holds.fresh {c : Chan} {n : Nat} {st} {rs} (h : Holds c n st rs) (he : c.pack = c.prev) (hc : ∀ i, st ≠ some (.copy i))
    {r : List Byte} (hr : r.length = n) : Holds { c with pack := r } n st (rs ++ [r]) := by
  refine ⟨h.prev, hr, by simp, ?_⟩
  rw [changes_append, ← h.last]
  exact h.way.fresh he hc r

theorem Holds.enter {c : Chan} {n : Nat} {rs} (h : Holds c n none rs) : Holds c n (some .test) rs := by
  refine ⟨h.prev, h.pack, h.last, ?_⟩
  have hw := h.way
  generalize hst : (none : Option Stage) = st at hw
  cases hw with
  | idle h1 h2 h3 h4 h5 _ => exact .idle h1 h2 h3 h4 h5 (by simp)
  | todo h1 h2 h3 h4 h5 _ => exact .todo h1 h2 h3 h4 h5 (by simp)
  | loaded => cases hst
  | armed => cases hst
  | early => cases hst
  | marked => cases hst
  | taken => cases hst
  | waiting h1 h2 h3 h4 h5 h6 _ => exact .waiting h1 h2 h3 h4 h5 h6 (by simp)
  | received h1 h2 h3 h4 _ => exact .received h1 h2 h3 h4 (by simp)
  | copying => cases hst

/-- The invariant of the firmware. -/
structure Inv (s : State) : Prop where
  keyboard : Holds s.keyboard 8 (s.pc.within .keyboard) (s.made.map (·.keyboard))
  consumer : Holds s.consumer 4 (s.pc.within .consumer) (s.made.map (·.consumer))
  start : s.configured = false → s.pc = .top ∧ (s.keyboard.ack = false ∧ s.keyboard.busy = false) ∧ (s.consumer.ack = false ∧ s.consumer.busy = false)

theorem Inv.new : Inv State.new where
  keyboard := ⟨rfl, rfl, rfl, .idle rfl rfl rfl rfl rfl (.inl rfl)⟩
  consumer := ⟨rfl, rfl, rfl, .idle rfl rfl rfl rfl rfl (.inl rfl)⟩
  start := fun _ => ⟨rfl, ⟨rfl, rfl⟩, rfl, rfl⟩

theorem Inv.main {s : State} (h : Inv s) : Inv s.main := by
  obtain ⟨hk, hc, hs⟩ := h
  obtain ⟨k, m, c, pc, cf, made⟩ := s
  unfold State.main
  cases pc with
  | top =>
    cases cf with
    | false => exact ⟨hk, hc, hs⟩
    | true => exact ⟨hk.enter, hc, by simp⟩
  | «at» ep st =>
    have hcf : cf = true := by
      cases cf with
      | true => rfl
      | false => exact absurd (hs rfl).1 (by simp)
    subst hcf
    cases ep with
    | keyboard =>
      refine ⟨?_, ?_, by simp⟩
      · have := Holds.step (by simpa [Pc.within] using hk)
        show Holds (k.step false st).1 8 (Pc.within .keyboard (Ep.after .keyboard (k.step false st).2)) _
        have e : Pc.within .keyboard (Ep.after .keyboard (k.step false st).2) = (k.step false st).2 := by
          cases (k.step false st).2 <;> simp [Ep.after, Ep.next, Pc.within]
        rw [e]; exact this
      · show Holds c 4 (Pc.within .consumer (Ep.after .keyboard (k.step false st).2)) _
        have e : Pc.within .consumer (Ep.after .keyboard (k.step false st).2) = none := by
          cases (k.step false st).2 <;> simp [Ep.after, Ep.next, Pc.within]
        rw [e]; simpa [Pc.within] using hc
    | mouse =>
      have hk' : Holds k 8 none (made.map (·.keyboard)) := by simpa [Pc.within] using hk
      have hc' : Holds c 4 none (made.map (·.consumer)) := by simpa [Pc.within] using hc
      refine ⟨?_, ?_, by simp⟩
      · show Holds k 8 (Pc.within .keyboard (Ep.after .mouse (m.step true st).2)) _
        have e : Pc.within .keyboard (Ep.after .mouse (m.step true st).2) = none := by
          cases (m.step true st).2 <;> simp [Ep.after, Ep.next, Pc.within]
        rw [e]; exact hk'
      · show Holds c 4 (Pc.within .consumer (Ep.after .mouse (m.step true st).2)) _
        cases (m.step true st).2 with
        | none => exact hc'.enter
        | some => exact hc'
    | consumer =>
      have hk' : Holds k 8 none (made.map (·.keyboard)) := by simpa [Pc.within] using hk
      have hc' : Holds c 4 (some st) (made.map (·.consumer)) := by simpa [Pc.within] using hc
      refine ⟨?_, ?_, by simp⟩
      · show Holds k 8 (Pc.within .keyboard (Ep.after .consumer (c.step false st).2)) _
        have e : Pc.within .keyboard (Ep.after .consumer (c.step false st).2) = none := by
          cases (c.step false st).2 <;> simp [Ep.after, Ep.next, Pc.within]
        rw [e]; exact hk'
      · show Holds (c.step false st).1 4 (Pc.within .consumer (Ep.after .consumer (c.step false st).2)) _
        have e : Pc.within .consumer (Ep.after .consumer (c.step false st).2) = (c.step false st).2 := by
          cases (c.step false st).2 <;> simp [Ep.after, Ep.next, Pc.within]
        rw [e]; exact hc'.step

theorem within_copy {pc : Pc} (h : ∀ ep i, pc ≠ .at ep (.copy i)) (ep : Ep) (i : Nat) : pc.within ep ≠ some (.copy i) := by
  intro hw
  cases pc with
  | top => cases hw
  | «at» e st =>
    by_cases he : e = ep
    · simp only [Pc.within, if_pos he, Option.some.injEq] at hw
      exact h e i (by rw [hw])
    · simp [Pc.within, he] at hw

theorem poll_free {c : Chan} (h : c.ack = false) : c.poll = c := by simp [Chan.poll, h]

theorem Inv.step {s : State} {e : Event} (h : Inv s) (hm : Calm s e) : Inv (s.step e) := by
  cases e with
  | main => exact h.main
  | timer r =>
    show Inv (s.timer r)
    unfold State.timer
    split
    · next hs =>
      simp only [State.sent, Bool.and_eq_true, decide_eq_true_eq] at hs
      obtain ⟨⟨h1, h2⟩, h3⟩ := hs
      refine ⟨?_, ?_, h.start⟩
      · simp only [List.map_append, List.map_cons, List.map_nil]
        exact h.keyboard.fresh h1 (within_copy hm.2 _) hm.1.1
      · simp only [List.map_append, List.map_cons, List.map_nil]
        exact h.consumer.fresh h2 (within_copy hm.2 _) hm.1.2.2
    · exact h
  | poll ep =>
    have hs : s.configured = false → s.pc = .top ∧ (s.keyboard.poll.ack = false ∧ s.keyboard.poll.busy = false) ∧
        (s.consumer.poll.ack = false ∧ s.consumer.poll.busy = false) := fun hf => by
      obtain ⟨h1, h2, h3⟩ := h.start hf
      rw [poll_free h2.1, poll_free h3.1]; exact ⟨h1, h2, h3⟩
    cases ep with
    | keyboard => exact ⟨h.keyboard.poll, h.consumer, fun hf => ⟨(hs hf).1, (hs hf).2.1, (h.start hf).2.2⟩⟩
    | mouse => exact ⟨h.keyboard, h.consumer, h.start⟩
    | consumer => exact ⟨h.keyboard, h.consumer.poll, fun hf => ⟨(hs hf).1, (h.start hf).2.1, (hs hf).2.2⟩⟩
  | configure => exact ⟨h.keyboard, h.consumer, by simp [State.step]⟩
  | reset =>
    obtain ⟨h1, h2, h3⟩ := h.start hm
    have e1 : s.keyboard.reset = s.keyboard := by cases hk : s.keyboard; rw [hk] at h2; cases h2.1; cases h2.2; rfl
    have e2 : s.consumer.reset = s.consumer := by cases hk : s.consumer; rw [hk] at h3; cases h3.1; cases h3.2; rfl
    refine ⟨?_, ?_, fun _ => ⟨h1, ?_, ?_⟩⟩
    · show Holds s.keyboard.reset _ _ _; rw [e1]; exact h.keyboard
    · show Holds s.consumer.reset _ _ _; rw [e2]; exact h.consumer
    · exact ⟨rfl, rfl⟩
    · exact ⟨rfl, rfl⟩

theorem Inv.run {es : List Event} {s : State} (h : Inv s) (ha : Along Calm s es) : Inv (s.run es) := by
  induction es generalizing s with
  | nil => exact h
  | cons e es ih => exact ih (h.step ha.1) ha.2

/-- C66: whatever the main loop, the timer and the host do, and in whatever order: the host has received the changes of the keyboard reports
of the keymap, each of them once and in their order, but for the last one, which may be on its way. So it has of the consumer
reports. -/
theorem C66_order_partial (es : List Event) (h : Along Calm State.new es) :
    let s := State.new.run es
    (∃ rest, s.keyboard.host ++ rest = changes (List.replicate 8 0) (s.made.map (·.keyboard)) ∧ rest.length ≤ 1) ∧
    ∃ rest, s.consumer.host ++ rest = changes (List.replicate 4 0) (s.made.map (·.consumer)) ∧ rest.length ≤ 1 := by
  have := Inv.new.run h
  exact ⟨this.keyboard.way.sub, this.consumer.way.sub⟩

/-! ## Nothing gets stuck -/

/-- What holds of every kind of report when the host is never too early. -/
inductive Orderly (c : Chan) : Option Stage → Prop where
  | between {st} : c.busy = c.ack → (c.sending = false → c.ack = false) → (st = none ∨ st = some .test ∨ st = some .choose) → Orderly c st
  | load : c.busy = false → c.ack = false → c.sending = false → Orderly c (some .load)
  | ack : c.busy = false → c.ack = false → c.sending = false → Orderly c (some .ack)
  | busy : c.ack = true → c.sending = false → Orderly c (some .busy)
  | mark : c.busy = c.ack → c.sending = false → Orderly c (some .mark)
  | copy {i} : c.busy = false → c.ack = false → c.sending = true → i ≤ c.pack.length → c.prev.take i = c.pack.take i → Orderly c (some (.copy i))

theorem Orderly.step {c : Chan} {b : Bool} {st : Stage} (hl : c.prev.length = c.pack.length) (h : Orderly c (some st)) :
    Orderly (c.step b st).1 (c.step b st).2 := by
  cases h with
  | between h1 h2 h3 =>
    rcases h3 with h3 | h3 | h3 <;> cases h3
    · refine .between h1 h2 ?_
      simp only [Chan.step]; split <;> simp
    · cases hs : c.sending with
      | false =>
        have ha := h2 hs
        have : c.step b .choose = (c, some .load) := by simp [Chan.step, hs, h1, ha]
        rw [this]; exact .load (h1.trans ha) ha hs
      | true =>
        cases hb : c.busy with
        | false =>
          have : c.step b .choose = (c, some (.copy 0)) := by simp [Chan.step, hs, hb]
          rw [this]; exact .copy hb (by rw [← h1, hb]) hs (by simp) (by simp)
        | true =>
          have : c.step b .choose = (c, none) := by simp [Chan.step, hs, hb]
          rw [this]; exact .between h1 h2 (by simp)
  | load h1 h2 h3 => exact .ack h1 h2 h3
  | ack h1 h2 h3 => exact .busy rfl h3
  | busy h1 h2 => exact .mark h1.symm h2
  | mark h1 h2 => exact .between h1 (fun h => by cases h) (by simp [Chan.step])
  | @copy i h1 h2 h3 h4 h5 =>
    by_cases hi : i < c.pack.length
    · have : (c.step b (.copy i)) = ({ c with prev := c.prev.set i c.pack[i] }, some (.copy (i + 1))) := by simp [Chan.step, hi]
      rw [this]; exact .copy h1 h2 h3 hi (take_set_succ hl hi h5)
    · have : (c.step b (.copy i)) = ({ c with sending := false }, none) := by simp [Chan.step, hi]
      rw [this]; exact .between (h1.trans h2.symm) (fun _ => h2) (by simp)

theorem Orderly.poll {c : Chan} {st : Option Stage} (h : Orderly c st) (hst : st ≠ some .busy) : Orderly c.poll st := by
  cases ha : c.ack with
  | false => rw [poll_free ha]; exact h
  | true =>
    have : c.poll = { c with host := c.host ++ [c.buf], ack := false, busy := false } := by simp [Chan.poll, ha]
    rw [this]
    cases h with
    | between h1 h2 h3 => exact .between rfl (fun _ => rfl) h3
    | load _ h => rw [ha] at h; cases h
    | ack _ h => rw [ha] at h; cases h
    | busy => exact absurd rfl hst
    | mark h1 h2 => exact .mark rfl h2
    | copy _ h => rw [ha] at h; cases h

theorem Orderly.fresh {c : Chan} {st : Option Stage} (h : Orderly c st) (hc : ∀ i, st ≠ some (.copy i)) (r : List Byte) :
    Orderly { c with pack := r } st := by
  cases h with
  | between h1 h2 h3 => exact .between h1 h2 h3
  | load h1 h2 h3 => exact .load h1 h2 h3
  | ack h1 h2 h3 => exact .ack h1 h2 h3
  | busy h1 h2 => exact .busy h1 h2
  | mark h1 h2 => exact .mark h1 h2
  | copy => exact absurd rfl (hc _)

theorem Orderly.enter {c : Chan} (h : Orderly c none) : Orderly c (some .test) := by
  cases h with
  | between h1 h2 h3 => exact .between h1 h2 (by simp)

/-- One kind of report: the sizes, and the order of steps. -/
structure Fine (c : Chan) (n : Nat) (st : Option Stage) : Prop where
  prev : c.prev.length = n
  pack : c.pack.length = n
  orderly : Orderly c st

theorem Fine.step {c : Chan} {n : Nat} {b : Bool} {st : Stage} (h : Fine c n (some st)) : Fine (c.step b st).1 n (c.step b st).2 := by
  obtain ⟨h1, h2⟩ := step_lengths b c st
  exact ⟨h1.trans h.prev, by rw [h2]; exact h.pack, h.orderly.step (h.prev.trans h.pack.symm)⟩

theorem Fine.enter {c : Chan} {n : Nat} (h : Fine c n none) : Fine c n (some .test) := ⟨h.prev, h.pack, h.orderly.enter⟩

theorem Fine.poll {c : Chan} {n : Nat} {st} (h : Fine c n st) (hst : st ≠ some .busy) : Fine c.poll n st := by
  refine ⟨?_, ?_, h.orderly.poll hst⟩ <;> simp only [Chan.poll] <;> split <;> first | exact h.prev | exact h.pack

/-- All three. -/
structure Live (s : State) : Prop where
  keyboard : Fine s.keyboard 8 (s.pc.within .keyboard)
  mouse : Fine s.mouse 4 (s.pc.within .mouse)
  consumer : Fine s.consumer 4 (s.pc.within .consumer)

theorem Live.main {s : State} (h : Live s) : Live s.main := by
  obtain ⟨hk, hm, hc⟩ := h
  obtain ⟨k, m, c, pc, cf, made⟩ := s
  unfold State.main
  cases pc with
  | top =>
    cases cf with
    | false => exact ⟨hk, hm, hc⟩
    | true => exact ⟨hk.enter, hm, hc⟩
  | «at» ep st =>
    cases ep with
    | keyboard =>
      have hk' : Fine k 8 (some st) := by simpa [Pc.within] using hk
      have hm' : Fine m 4 none := by simpa [Pc.within] using hm
      have hc' : Fine c 4 none := by simpa [Pc.within] using hc
      have hs := hk'.step (b := false)
      cases hr : (k.step false st).2 with
      | none => rw [hr] at hs; exact ⟨by simpa [Ep.after, Ep.next, Pc.within, hr] using hs, by simpa [Ep.after, Ep.next, Pc.within, hr] using hm'.enter,
          by simpa [Ep.after, Ep.next, Pc.within, hr] using hc'⟩
      | some st' => rw [hr] at hs; exact ⟨by simpa [Ep.after, Ep.next, Pc.within, hr] using hs, by simpa [Ep.after, Ep.next, Pc.within, hr] using hm',
          by simpa [Ep.after, Ep.next, Pc.within, hr] using hc'⟩
    | mouse =>
      have hk' : Fine k 8 none := by simpa [Pc.within] using hk
      have hm' : Fine m 4 (some st) := by simpa [Pc.within] using hm
      have hc' : Fine c 4 none := by simpa [Pc.within] using hc
      have hs := hm'.step (b := true)
      cases hr : (m.step true st).2 with
      | none => rw [hr] at hs; exact ⟨by simpa [Ep.after, Ep.next, Pc.within, hr] using hk', by simpa [Ep.after, Ep.next, Pc.within, hr] using hs,
          by simpa [Ep.after, Ep.next, Pc.within, hr] using hc'.enter⟩
      | some st' => rw [hr] at hs; exact ⟨by simpa [Ep.after, Ep.next, Pc.within, hr] using hk', by simpa [Ep.after, Ep.next, Pc.within, hr] using hs,
          by simpa [Ep.after, Ep.next, Pc.within, hr] using hc'⟩
    | consumer =>
      have hk' : Fine k 8 none := by simpa [Pc.within] using hk
      have hm' : Fine m 4 none := by simpa [Pc.within] using hm
      have hc' : Fine c 4 (some st) := by simpa [Pc.within] using hc
      have hs := hc'.step (b := false)
      cases hr : (c.step false st).2 with
      | none => rw [hr] at hs; exact ⟨by simpa [Ep.after, Ep.next, Pc.within, hr] using hk', by simpa [Ep.after, Ep.next, Pc.within, hr] using hm',
          by simpa [Ep.after, Ep.next, Pc.within, hr] using hs⟩
      | some st' => rw [hr] at hs; exact ⟨by simpa [Ep.after, Ep.next, Pc.within, hr] using hk', by simpa [Ep.after, Ep.next, Pc.within, hr] using hm',
          by simpa [Ep.after, Ep.next, Pc.within, hr] using hs⟩

theorem within_busy {pc : Pc} {ep : Ep} (h : pc ≠ .at ep .busy) : pc.within ep ≠ some .busy := by
  intro hw
  cases pc with
  | top => cases hw
  | «at» e st =>
    by_cases he : e = ep
    · simp only [Pc.within, if_pos he, Option.some.injEq] at hw
      exact h (by rw [he, hw])
    · simp [Pc.within, he] at hw

theorem Orderly.reset {c : Chan} (h : Orderly c none) : Orderly c.reset none := by
  cases h with
  | between _ _ h3 => exact .between rfl (fun _ => rfl) h3

theorem Live.step {s : State} {e : Event} (h : Live s) (hi : Inv s) (hm : Prompt s e) : Live (s.step e) := by
  cases e with
  | main => exact h.main
  | timer r =>
    show Live (s.timer r)
    unfold State.timer
    split
    · have hcp := fun ep => within_copy hm.2 ep
      exact ⟨⟨h.keyboard.prev, hm.1.1, h.keyboard.orderly.fresh (hcp _) _⟩, ⟨h.mouse.prev, hm.1.2.1, h.mouse.orderly.fresh (hcp _) _⟩,
        ⟨h.consumer.prev, hm.1.2.2, h.consumer.orderly.fresh (hcp _) _⟩⟩
    · exact h
  | poll ep =>
    cases ep with
    | keyboard => exact ⟨h.keyboard.poll (within_busy hm), h.mouse, h.consumer⟩
    | mouse => exact ⟨h.keyboard, h.mouse.poll (within_busy hm), h.consumer⟩
    | consumer => exact ⟨h.keyboard, h.mouse, h.consumer.poll (within_busy hm)⟩
  | configure => exact ⟨h.keyboard, h.mouse, h.consumer⟩
  | reset =>
    obtain ⟨h1, _, _⟩ := hi.start hm
    have ht : ∀ ep, s.pc.within ep = none := fun ep => by rw [h1]; rfl
    refine ⟨⟨h.keyboard.prev, h.keyboard.pack, ?_⟩, ⟨h.mouse.prev, h.mouse.pack, ?_⟩, ⟨h.consumer.prev, h.consumer.pack, ?_⟩⟩
    · have := h.keyboard.orderly; rw [ht] at this; show Orderly _ (s.pc.within _); rw [ht]; exact this.reset
    · have := h.mouse.orderly; rw [ht] at this; show Orderly _ (s.pc.within _); rw [ht]; exact this.reset
    · have := h.consumer.orderly; rw [ht] at this; show Orderly _ (s.pc.within _); rw [ht]; exact this.reset

theorem Prompt.calm {s : State} {e : Event} (h : Prompt s e) : Calm s e := by
  cases e with
  | main => trivial
  | timer => exact h
  | poll => trivial
  | configure => trivial
  | reset => exact h

theorem live_run {es : List Event} {s : State} (h : Live s) (hi : Inv s) (ha : Along Prompt s es) : Live (s.run es) ∧ Inv (s.run es) := by
  induction es generalizing s with
  | nil => exact ⟨h, hi⟩
  | cons e es ih => exact ih (h.step hi ha.1) (hi.step ha.1.calm) ha.2

theorem Live.new : Live State.new :=
  ⟨⟨rfl, rfl, .between rfl (fun _ => rfl) (.inl rfl)⟩, ⟨rfl, rfl, .between rfl (fun _ => rfl) (.inl rfl)⟩,
    ⟨rfl, rfl, .between rfl (fun _ => rfl) (.inl rfl)⟩⟩

/-- The variables of one kind of report. -/
def State.chan (s : State) : Ep → Chan
  | .keyboard => s.keyboard
  | .mouse => s.mouse
  | .consumer => s.consumer

def State.put (s : State) (ep : Ep) (c : Chan) : State :=
  match ep with
  | .keyboard => { s with keyboard := c }
  | .mouse => { s with mouse := c }
  | .consumer => { s with consumer := c }

def Ep.resend : Ep → Bool
  | .mouse => true
  | _ => false

def Ep.size : Ep → Nat
  | .keyboard => 8
  | _ => 4

theorem main_at {s : State} {ep : Ep} {st : Stage} (h : s.pc = .at ep st) :
    s.main = { (s.put ep ((s.chan ep).step ep.resend st).1) with pc := ep.after ((s.chan ep).step ep.resend st).2 } := by
  obtain ⟨k, m, c, pc, cf, made⟩ := s
  cases h
  cases ep <;> rfl

theorem Live.chan {s : State} (h : Live s) (ep : Ep) : Fine (s.chan ep) ep.size (s.pc.within ep) := by
  cases ep
  · exact h.keyboard
  · exact h.mouse
  · exact h.consumer

theorem put_chan (s : State) (ep ep' : Ep) (c : Chan) : (s.put ep c).chan ep' = if ep' = ep then c else s.chan ep' := by
  cases ep <;> cases ep' <;> rfl

theorem put_put (s : State) (ep : Ep) (c c' : Chan) : (s.put ep c).put ep c' = s.put ep c' := by cases ep <;> rfl

theorem put_configured (s : State) (ep : Ep) (c : Chan) : (s.put ep c).configured = s.configured := by cases ep <;> rfl

theorem put_made (s : State) (ep : Ep) (c : Chan) : (s.put ep c).made = s.made := by cases ep <;> rfl

theorem run_mains_add (s : State) (a b : Nat) :
    s.run (List.replicate (a + b) .main) = (s.run (List.replicate a .main)).run (List.replicate b .main) := by
  rw [← List.replicate_append_replicate]; exact List.foldl_append

/-- The block of an end-point, from a stage to its end, in `k` steps. -/
inductive Runs (b : Bool) : Chan → Stage → Nat → Chan → Prop where
  | done {c st c'} : c.step b st = (c', none) → Runs b c st 1 c'
  | more {c st c1 st1 k c'} : c.step b st = (c1, some st1) → Runs b c1 st1 k c' → Runs b c st (k + 1) c'

theorem Runs.mains {c c' : Chan} {b : Bool} {st : Stage} {k : Nat} (h : Runs b c st k c') (ep : Ep) (hb : ep.resend = b) (s : State) (hs : s.chan ep = c)
    (hpc : s.pc = .at ep st) : s.run (List.replicate k .main) = { (s.put ep c') with pc := ep.next } := by
  subst hb
  induction h generalizing s with
  | done h =>
    show s.main = _
    rw [main_at hpc, hs, h]; rfl
  | @more c st c1 st1 k c' h _ ih =>
    show s.main.run (List.replicate k .main) = _
    rw [main_at hpc, hs, h]
    have := ih { (s.put ep c1) with pc := ep.after (some st1) } (by
      have : ({ (s.put ep c1) with pc := ep.after (some st1) } : State).chan ep = (s.put ep c1).chan ep := by cases ep <;> rfl
      rw [this, put_chan, if_pos rfl]) rfl
    rw [this]
    cases ep <;> rfl

/-- A bound on the steps to the end of the block. -/
def Stage.left : Stage → Nat
  | .test => 20
  | .choose => 19
  | .load => 5
  | .ack => 4
  | .busy => 3
  | .mark => 2
  | .copy i => 18 - i

theorem step_left {c : Chan} {b : Bool} {st st' : Stage} (hl : c.pack.length ≤ 8) (h : (c.step b st).2 = some st') :
    st'.left < st.left := by
  cases st with
  | test => simp only [Chan.step] at h; split at h <;> cases h; decide
  | choose =>
    simp only [Chan.step] at h
    split at h
    · cases h; split <;> decide
    · split at h <;> cases h; decide
  | load => cases h; decide
  | ack => cases h; decide
  | busy => cases h; decide
  | mark => cases h
  | copy i =>
    simp only [Chan.step] at h
    split at h
    · cases h; simp only [Stage.left]; omega
    · cases h

theorem left_pos {c : Chan} {st : Stage} (hl : c.pack.length ≤ 8) (h : Orderly c (some st)) : 0 < st.left := by
  cases h with
  | between _ _ h => rcases h with h | h | h <;> cases h <;> decide
  | load => decide
  | ack => decide
  | busy => decide
  | mark => decide
  | copy _ _ _ h => simp only [Stage.left]; omega

theorem size_le (ep : Ep) : ep.size ≤ 8 := by cases ep <;> decide

/-- A predicate kept by the steps of the block holds at its end. -/
theorem runs_end {b : Bool} {n : Nat} (P : Chan → Option Stage → Prop) (hP : ∀ c st, P c (some st) → Fine c n (some st) → P (c.step b st).1 (c.step b st).2)
    (hn : n ≤ 8) : ∀ (k : Nat) (c : Chan) (st : Stage), st.left ≤ k → Fine c n (some st) → P c (some st) →
    ∃ k', k' ≤ k ∧ ∃ c', Runs b c st k' c' ∧ Fine c' n none ∧ P c' none
  | 0, c, st, hk, hf, _ => absurd (left_pos (by rw [hf.pack]; exact hn) hf.orderly) (by omega)
  | k + 1, c, st, hk, hf, hp => by
    have h1 := hf.step (b := b)
    have h2 := hP c st hp hf
    cases hr : c.step b st with
    | mk c1 o =>
      rw [hr] at h1 h2
      cases o with
      | none => exact ⟨1, by omega, c1, .done hr, h1, h2⟩
      | some st1 =>
        have := step_left (st' := st1) (by rw [hf.pack]; exact hn) (by rw [hr])
        obtain ⟨k', hk', c', h3, h4, h5⟩ := runs_end P hP hn k c1 st1 (by omega) h1 h2
        exact ⟨k' + 1, by omega, c', .more hr h3, h4, h5⟩

theorem set_getElem {a : List Byte} {i : Nat} (h : i < a.length) : a.set i a[i] = a := List.set_getElem_self h

theorem step_same {c : Chan} (b : Bool) (st : Stage) (h : c.pack = c.prev) : (c.step b st).1.pack = (c.step b st).1.prev := by
  obtain ⟨pack, prev, se, bu, ak, buf, host⟩ := c
  cases h
  cases st with
  | test => exact rfl
  | choose => simp only [Chan.step]; split; · exact rfl
              split <;> exact rfl
  | load => exact rfl
  | ack => exact rfl
  | busy => exact rfl
  | mark => exact rfl
  | copy i =>
    simp only [Chan.step]
    split
    · exact (List.set_getElem_self _).symm
    · exact rfl

/-- The report waits for the host. -/
def Waits (c : Chan) (st : Option Stage) : Prop :=
  c.sending = true ∧ c.ack = true ∧ c.busy = true ∧ (st = none ∨ st = some .test ∨ st = some .choose)

/-- The host has the report. -/
def Gone (c : Chan) (st : Option Stage) : Prop :=
  c.sending = true ∧ c.ack = false ∧ c.busy = false ∧ (st = none ∨ st = some .test ∨ st = some .choose ∨ ∃ i, st = some (.copy i))

theorem ready_step {c : Chan} {n : Nat} {b : Bool} {st : Stage} (h : c.pack = c.prev ∨ Waits c (some st)) (_ : Fine c n (some st)) :
    (c.step b st).1.pack = (c.step b st).1.prev ∨ Waits (c.step b st).1 (c.step b st).2 := by
  rcases h with h | ⟨h1, h2, h3, h4⟩
  · exact .inl (step_same b st h)
  · right
    rcases h4 with h4 | h4 | h4 <;> cases h4
    · refine ⟨h1, h2, h3, ?_⟩
      simp only [Chan.step]; split <;> simp
    · have : c.step b .choose = (c, none) := by simp [Chan.step, h1, h3]
      rw [this]; exact ⟨h1, h2, h3, .inl rfl⟩

theorem gone_step {c : Chan} {n : Nat} {b : Bool} {st : Stage} (h : c.pack = c.prev ∨ Gone c (some st)) (hf : Fine c n (some st)) :
    (c.step b st).1.pack = (c.step b st).1.prev ∨ Gone (c.step b st).1 (c.step b st).2 := by
  rcases h with h | ⟨h1, h2, h3, h4⟩
  · exact .inl (step_same b st h)
  · rcases h4 with h4 | h4 | h4 | ⟨i, h4⟩ <;> cases h4
    · right
      refine ⟨h1, h2, h3, ?_⟩
      simp only [Chan.step]; split <;> simp
    · right
      have : c.step b .choose = (c, some (.copy 0)) := by simp [Chan.step, h1, h3]
      rw [this]; exact ⟨h1, h2, h3, .inr (.inr (.inr ⟨0, rfl⟩))⟩
    · by_cases hi : i < c.pack.length
      · right
        have : (c.step b (.copy i)) = ({ c with prev := c.prev.set i c.pack[i] }, some (.copy (i + 1))) := by simp [Chan.step, hi]
        rw [this]; exact ⟨h1, h2, h3, .inr (.inr (.inr ⟨_, rfl⟩))⟩
      · left
        have : (c.step b (.copy i)) = ({ c with sending := false }, none) := by simp [Chan.step, hi]
        rw [this]
        have ho := hf.orderly
        generalize hst : some (Stage.copy i) = st' at ho
        cases ho with
        | between _ _ h => rcases h with h | h | h <;> rw [h] at hst <;> cases hst
        | load => cases hst
        | ack => cases hst
        | busy => cases hst
        | mark => cases hst
        | copy _ _ _ h4 h5 =>
          cases hst
          have : i = c.pack.length := by omega
          subst this
          rw [List.take_length, List.take_of_length_le (by rw [hf.prev, hf.pack]; exact Nat.le_refl _)] at h5
          exact h5.symm

/-- What a whole block does. -/
structure Pass (b : Bool) (c c' : Chan) : Prop where
  same : c.pack = c.prev → c'.pack = c'.prev
  ready : c'.pack = c'.prev ∨ Waits c' none
  gone : Gone c none → c'.pack = c'.prev
  turn : b = true → (∃ x ∈ c.pack, x ≠ 0) → (c.sending = false → Waits c' none) ∧ (Gone c none → c'.sending = false ∧ c'.ack = false) ∧ (Waits c none → c' = c)
  pack : c'.pack = c.pack

theorem copy_end {c : Chan} {n : Nat} {i : Nat} (hf : Fine c n (some (.copy i))) (hi : ¬ i < c.pack.length) : c.pack = c.prev := by
  have ho := hf.orderly
  generalize hst : some (Stage.copy i) = st' at ho
  cases ho with
  | between _ _ h => rcases h with h | h | h <;> rw [h] at hst <;> cases hst
  | load => cases hst
  | ack => cases hst
  | busy => cases hst
  | mark => cases hst
  | copy _ _ _ h4 h5 =>
    cases hst
    have : i = c.pack.length := by omega
    subst this
    rw [List.take_length, List.take_of_length_le (by rw [hf.prev, hf.pack]; exact Nat.le_refl _)] at h5
    exact h5.symm

/-- The `memcpy` to the packet before, to its end. -/
theorem copy_runs {c : Chan} {n : Nat} {b : Bool} (hn : n ≤ 8) (hf : Fine c n (some (.copy 0))) :
    ∃ k, k ≤ 18 ∧ ∃ c', Runs b c (.copy 0) k c' ∧ Fine c' n none ∧ c'.pack = c'.prev ∧ c'.pack = c.pack ∧ c'.sending = false ∧ c'.ack = false := by
  have ha : c.ack = false := by
    have ho := hf.orderly
    generalize hst : some (Stage.copy 0) = st' at ho
    cases ho with
    | between _ _ h => rcases h with h | h | h <;> rw [h] at hst <;> cases hst
    | load => cases hst
    | ack => cases hst
    | busy => cases hst
    | mark => cases hst
    | copy _ h => exact h
  obtain ⟨k, hk, c', h1, h2, h3⟩ := runs_end (b := b) (n := n)
    (fun d st => d.pack = c.pack ∧ d.ack = false ∧ ((∃ i, st = some (.copy i)) ∨ (st = none ∧ d.pack = d.prev ∧ d.sending = false)))
    (fun d st ⟨hp, hda, hs⟩ hf => by
      rcases hs with ⟨i, hs⟩ | hs
      · cases hs
        by_cases hi : i < d.pack.length
        · have : (d.step b (.copy i)) = ({ d with prev := d.prev.set i d.pack[i] }, some (.copy (i + 1))) := by simp [Chan.step, hi]
          rw [this]; exact ⟨hp, hda, .inl ⟨_, rfl⟩⟩
        · have : (d.step b (.copy i)) = ({ d with sending := false }, none) := by simp [Chan.step, hi]
          have hce := copy_end hf hi
          rw [this]; exact ⟨hp, hda, .inr ⟨rfl, hce, rfl⟩⟩
      · cases hs.1) hn 18 c (.copy 0) (by decide) hf ⟨rfl, ha, .inl ⟨0, rfl⟩⟩
  obtain ⟨h4, h5, h6⟩ := h3
  rcases h6 with ⟨i, h6⟩ | ⟨_, h6, h7⟩
  · cases h6
  · exact ⟨k, hk, c', h1, h2, h6, h4, h7, h5⟩

theorem pass {c : Chan} {n : Nat} (b : Bool) (hn : n ≤ 8) (h : Fine c n none) :
    ∃ k, k ≤ 20 ∧ ∃ c', Runs b c .test k c' ∧ Fine c' n none ∧ Pass b c c' := by
  by_cases he : c.pack ≠ c.prev ∨ (b = true ∧ ∃ x ∈ c.pack, x ≠ 0)
  · have ht : c.step b .test = (c, some .choose) := by simp only [Chan.step]; rw [if_pos he]
    have ho := h.orderly
    generalize hst : (none : Option Stage) = st at ho
    cases ho with
    | between h1 h2 _ =>
      subst hst
      cases hs : c.sending with
      | false =>
        have ha := h2 hs
        have hb : c.busy = false := h1.trans ha
        refine ⟨6, by decide, { c with buf := c.pack, ack := true, busy := true, sending := true }, ?_, ⟨h.prev, h.pack, ?_⟩, fun h => h, ?_, ?_, ?_, rfl⟩
        · exact .more ht (.more (c1 := c) (st1 := .load) (by simp [Chan.step, hs, hb])
            (.more rfl (.more rfl (.more rfl (.done rfl)))))
        · exact .between rfl (fun h => by cases h) (.inl rfl)
        · exact .inr ⟨rfl, rfl, rfl, .inl rfl⟩
        · exact fun hg => (by have := hg.1; rw [hs] at this; cases this)
        · exact fun _ _ => ⟨fun _ => ⟨rfl, rfl, rfl, .inl rfl⟩, fun hg => (by have := hg.1; rw [hs] at this; cases this),
            fun hg => (by have := hg.1; rw [hs] at this; cases this)⟩
      | true =>
        cases hb : c.busy with
        | true =>
          exact ⟨2, by decide, c, .more ht (.done (by simp [Chan.step, hs, hb])), h, fun h => h,
            .inr ⟨hs, by rw [← h1, hb], hb, .inl rfl⟩, fun hg => (by have := hg.2.2.1; rw [hb] at this; cases this),
            fun _ _ => ⟨fun hf => (by rw [hs] at hf; cases hf), fun hg => (by have := hg.2.2.1; rw [hb] at this; cases this), fun _ => rfl⟩, rfl⟩
        | false =>
          have ha : c.ack = false := by rw [← h1, hb]
          have hc : c.step b .choose = (c, some (.copy 0)) := by simp [Chan.step, hs, hb]
          obtain ⟨k, hk, c', h3, h4, h5, h6, h7, h8⟩ := copy_runs (b := b) (c := c) hn ⟨h.prev, h.pack, .copy hb ha hs (by simp) (by simp)⟩
          exact ⟨k + 1 + 1, by omega, c', .more ht (.more hc h3), h4, fun _ => h5, .inl h5, fun _ => h5,
            fun _ _ => ⟨fun hf => (by rw [hs] at hf; cases hf), fun _ => ⟨h7, h8⟩, fun hw => (by have := hw.2.1; rw [ha] at this; cases this)⟩, h6⟩
    | load => cases hst
    | ack => cases hst
    | busy => cases hst
    | mark => cases hst
    | copy => cases hst
  · have hp : c.pack = c.prev := Classical.byContradiction fun h => he (.inl h)
    have ht : c.step b .test = (c, none) := by simp only [Chan.step]; rw [if_neg he]
    exact ⟨1, by decide, c, .done ht, h, fun h => h, .inl hp, fun _ => hp, fun hb hx => absurd (.inr ⟨hb, hx⟩) he, rfl⟩

theorem put_within (s : State) (ep ep' : Ep) (c : Chan) (pc : Pc) :
    ({ (s.put ep c) with pc := pc } : State).chan ep' = if ep' = ep then c else s.chan ep' := by
  cases ep <;> cases ep' <;> rfl

/-- A property of one kind of report and of where the main loop is in its block. -/
def Each (P : Chan → Option Stage → Prop) (s : State) : Prop := ∀ ep, P (s.chan ep) (s.pc.within ep)

theorem Each.main {P : Chan → Option Stage → Prop} {s : State} (hl : Live s) (h : Each P s)
    (hs : ∀ {c : Chan} {n : Nat} {b : Bool} {st : Stage}, P c (some st) → Fine c n (some st) → P (c.step b st).1 (c.step b st).2)
    (he : ∀ c, P c none → P c (some .test)) : Each P s.main := by
  intro ep
  have h' := h ep
  cases hpc : s.pc with
  | top =>
    unfold State.main
    rw [hpc] at h' ⊢
    dsimp only
    split
    · cases ep with
      | keyboard => exact he _ h'
      | mouse => exact h'
      | consumer => exact h'
    · rw [hpc]; exact h'
  | «at» e st =>
    rw [main_at hpc, put_within]
    have hf := hl.chan e
    rw [hpc] at h' hf
    by_cases hee : ep = e
    · subst hee
      rw [if_pos rfl]
      have hw : (Pc.at ep st).within ep = some st := by simp [Pc.within]
      rw [hw] at h' hf
      have h2 := hs (b := ep.resend) h' hf
      have : (ep.after ((s.chan ep).step ep.resend st).2).within ep = ((s.chan ep).step ep.resend st).2 := by
        cases ((s.chan ep).step ep.resend st).2 <;> cases ep <;> rfl
      rw [this]; exact h2
    · rw [if_neg hee]
      have hw : (Pc.at e st).within ep = none := by simp only [Pc.within]; rw [if_neg (fun h => hee h.symm)]
      rw [hw] at h'
      cases ((s.chan e).step e.resend st).2 with
      | some st' =>
        have : (e.after (some st')).within ep = none := by simp only [Ep.after, Pc.within]; rw [if_neg (fun h => hee h.symm)]
        rw [this]; exact h'
      | none =>
        show P _ (e.next.within ep)
        have : e.next.within ep = none ∨ e.next.within ep = some .test := by cases e <;> cases ep <;> simp [Ep.next, Pc.within]
        rcases this with h | h <;> rw [h]
        · exact h'
        · exact he _ h'

theorem Live.mains {s : State} (h : Live s) : ∀ n, Live (s.run (List.replicate n .main))
  | 0 => h
  | n + 1 => Live.mains (s := s.main) h.main n

theorem Each.mains {P : Chan → Option Stage → Prop}
    (hs : ∀ {c : Chan} {n : Nat} {b : Bool} {st : Stage}, P c (some st) → Fine c n (some st) → P (c.step b st).1 (c.step b st).2)
    (he : ∀ c, P c none → P c (some .test)) {s : State} (hl : Live s) (h : Each P s) : ∀ n, Each P (s.run (List.replicate n .main))
  | 0 => h
  | n + 1 => Each.mains hs he (s := s.main) hl.main (h.main hl hs he) n

theorem main_frame (s : State) : s.main.configured = s.configured ∧ s.main.made = s.made := by
  unfold State.main
  split
  · split <;> exact ⟨rfl, rfl⟩
  all_goals exact ⟨rfl, rfl⟩

theorem mains_frame (s : State) : ∀ n, (s.run (List.replicate n .main)).configured = s.configured ∧ (s.run (List.replicate n .main)).made = s.made
  | 0 => ⟨rfl, rfl⟩
  | n + 1 => by
    have h := mains_frame s.main n
    have h' := main_frame s
    exact ⟨h.1.trans h'.1, h.2.trans h'.2⟩

/-- From within a block to its end. -/
theorem finish {s : State} {ep : Ep} {st : Stage} (hl : Live s) (hpc : s.pc = .at ep st) :
    ∃ k, k ≤ 20 ∧ (s.run (List.replicate k .main)).pc = ep.next := by
  have hf := hl.chan ep
  have hw : s.pc.within ep = some st := by rw [hpc]; simp [Pc.within]
  rw [hw] at hf
  have hst : st.left ≤ 20 := by cases st <;> simp only [Stage.left] <;> omega
  obtain ⟨k, hk, c', hr, _, _⟩ := runs_end (b := ep.resend) (fun _ _ => True) (fun _ _ _ _ => trivial) (size_le ep) 20 _ st hst hf trivial
  exact ⟨k, hk, by rw [hr.mains ep rfl s rfl hpc]⟩

theorem to_top {s : State} (hl : Live s) : ∃ k, k ≤ 60 ∧ (s.run (List.replicate k .main)).pc = .top := by
  have hc : ∀ {s : State} {st}, Live s → s.pc = .at .consumer st → ∃ k, k ≤ 20 ∧ (s.run (List.replicate k .main)).pc = .top :=
    fun hl h => finish hl h
  have hm : ∀ {s : State} {st}, Live s → s.pc = .at .mouse st → ∃ k, k ≤ 40 ∧ (s.run (List.replicate k .main)).pc = .top := fun {s st} hl h => by
    obtain ⟨k, hk, h1⟩ := finish hl h
    obtain ⟨k', hk', h2⟩ := hc (hl.mains k) h1
    exact ⟨k + k', by omega, by rw [run_mains_add]; exact h2⟩
  cases hpc : s.pc with
  | top => exact ⟨0, by omega, hpc⟩
  | «at» ep st =>
    cases ep with
    | keyboard =>
      obtain ⟨k, hk, h1⟩ := finish hl hpc
      obtain ⟨k', hk', h2⟩ := hm (hl.mains k) h1
      exact ⟨k + k', by omega, by rw [run_mains_add]; exact h2⟩
    | mouse => obtain ⟨k, hk, h⟩ := hm hl hpc; exact ⟨k, by omega, h⟩
    | consumer => obtain ⟨k, hk, h⟩ := hc hl hpc; exact ⟨k, by omega, h⟩

/-- One block, from its beginning. -/
theorem block {s : State} {ep : Ep} (hl : Live s) (hpc : s.pc = .at ep .test) :
    ∃ k, k ≤ 20 ∧ ∃ c', Pass ep.resend (s.chan ep) c' ∧ s.run (List.replicate k .main) = { (s.put ep c') with pc := ep.next } := by
  have hf := hl.chan ep
  have hw : s.pc.within ep = some .test := by rw [hpc]; simp [Pc.within]
  rw [hw] at hf
  have hn : Fine (s.chan ep) ep.size none := ⟨hf.prev, hf.pack, by
    have := hf.orderly
    cases this with
    | between h1 h2 _ => exact .between h1 h2 (.inl rfl)⟩
  obtain ⟨k, hk, c', hr, _, hp⟩ := pass ep.resend (size_le ep) hn
  exact ⟨k, hk, c', hp, hr.mains ep rfl s rfl hpc⟩

/-- Once around the main loop. -/
theorem loop {s : State} (hl : Live s) (hpc : s.pc = .top) (hcf : s.configured = true) :
    ∃ k, k ≤ 61 ∧ (s.run (List.replicate k .main)).pc = .top ∧ ∀ ep, Pass ep.resend (s.chan ep) ((s.run (List.replicate k .main)).chan ep) := by
  have h0 : s.main = { s with pc := .at .keyboard .test } := by unfold State.main; rw [hpc]; dsimp only; rw [if_pos hcf]
  obtain ⟨k1, hk1, c1, p1, e1⟩ := block (s := s.main) hl.main (by rw [h0])
  obtain ⟨k2, hk2, c2, p2, e2⟩ := block (s := s.main.run (List.replicate k1 .main)) (hl.main.mains k1) (ep := .mouse) (by rw [e1]; rfl)
  obtain ⟨k3, hk3, c3, p3, e3⟩ := block (s := (s.main.run (List.replicate k1 .main)).run (List.replicate k2 .main)) ((hl.main.mains k1).mains k2) (ep := .consumer)
    (by rw [e2]; rfl)
  have e : s.run (List.replicate (1 + k1 + k2 + k3) .main) = ((s.main.run (List.replicate k1 .main)).run (List.replicate k2 .main)).run (List.replicate k3 .main) := by
    rw [run_mains_add, run_mains_add, run_mains_add]; rfl
  refine ⟨1 + k1 + k2 + k3, by omega, ?_, fun ep => ?_⟩
  · rw [e, e3]; rfl
  · rw [e, e3, put_within]
    cases ep with
    | keyboard => rw [if_neg (by decide), e2, put_within, if_neg (by decide), e1, put_within, if_pos rfl]; rw [h0] at p1; exact p1
    | mouse => rw [if_neg (by decide), e2, put_within, if_pos rfl]; rw [e1, put_within, if_neg (by decide), h0] at p2; exact p2
    | consumer => rw [if_pos rfl]; rw [e2, put_within, if_neg (by decide), e1, put_within, if_neg (by decide), h0] at p3; exact p3

theorem top_within {s : State} (h : s.pc = .top) (ep : Ep) : s.pc.within ep = none := by rw [h]; rfl

theorem ready {s : State} (hl : Live s) (hcf : s.configured = true) {n : Nat} (hn : 121 ≤ n) :
    Each (fun c st => c.pack = c.prev ∨ Waits c st) (s.run (List.replicate n .main)) := by
  obtain ⟨k0, hk0, h0⟩ := to_top hl
  have hl0 := hl.mains k0
  obtain ⟨k1, hk1, h1, hp⟩ := loop hl0 h0 ((mains_frame s k0).1.trans hcf)
  have : n = (k0 + k1) + (n - k0 - k1) := by omega
  rw [this, run_mains_add, run_mains_add]
  refine Each.mains (fun h hf => ready_step h hf) (fun c h => h.imp id fun ⟨h1, h2, h3, _⟩ => ⟨h1, h2, h3, .inr (.inl rfl)⟩) (hl0.mains k1) (fun ep => ?_) _
  rw [top_within h1]
  exact (hp ep).ready

theorem settled {s : State} (hl : Live s) (hcf : s.configured = true) (hg : Each (fun c st => c.pack = c.prev ∨ Gone c st) s) {n : Nat} (hn : 121 ≤ n) :
    Each (fun c _ => c.pack = c.prev) (s.run (List.replicate n .main)) := by
  obtain ⟨k0, hk0, h0⟩ := to_top hl
  have hl0 := hl.mains k0
  have hg0 := Each.mains (P := fun c st => c.pack = c.prev ∨ Gone c st) (fun h hf => gone_step h hf)
    (fun c h => h.imp id fun ⟨h1, h2, h3, _⟩ => ⟨h1, h2, h3, .inr (.inl rfl)⟩) hl hg k0
  obtain ⟨k1, hk1, h1, hp⟩ := loop hl0 h0 ((mains_frame s k0).1.trans hcf)
  have : n = (k0 + k1) + (n - k0 - k1) := by omega
  rw [this, run_mains_add, run_mains_add]
  refine Each.mains (P := fun c _ => c.pack = c.prev) (fun h _ => step_same _ _ h) (fun c h => h) (hl0.mains k1) (fun ep => ?_) _
  have := hg0 ep
  rw [top_within h0] at this
  exact this.elim (hp ep).same (hp ep).gone

theorem round_run (s : State) : s.run round = { s with keyboard := s.keyboard.poll, mouse := s.mouse.poll, consumer := s.consumer.poll } := rfl

theorem poll_gone {c : Chan} {st} (h : c.pack = c.prev ∨ Waits c st) : c.poll.pack = c.poll.prev ∨ Gone c.poll st := by
  have hp : c.poll.pack = c.pack ∧ c.poll.prev = c.prev ∧ c.poll.sending = c.sending := by unfold Chan.poll; split <;> exact ⟨rfl, rfl, rfl⟩
  rcases h with h | ⟨h1, h2, h3, h4⟩
  · left; rw [hp.1, hp.2.1]; exact h
  · right
    refine ⟨by rw [hp.2.2]; exact h1, by simp [Chan.poll, h2], by simp [Chan.poll, h2], ?_⟩
    rcases h4 with h | h | h <;> simp [h]

theorem along_append {may : State → Event → Prop} : ∀ {s : State} {es fs : List Event}, Along may s (es ++ fs) ↔ Along may s es ∧ Along may (s.run es) fs
  | _, [], _ => ⟨fun h => ⟨trivial, h⟩, fun h => h.2⟩
  | s, e :: es, fs => by
    have := along_append (may := may) (s := s.step e) (es := es) (fs := fs)
    exact ⟨fun h => ⟨⟨h.1, (this.1 h.2).1⟩, (this.1 h.2).2⟩, fun h => ⟨h.1.1, this.2 ⟨h.1.2, h.2⟩⟩⟩

theorem run_append (s : State) (es fs : List Event) : s.run (es ++ fs) = (s.run es).run fs := List.foldl_append

theorem Way.all {c : Chan} {D : List (List Byte)} {st : Option Stage} (h : Way c D st) (he : c.pack = c.prev) : c.host = D := by
  cases h with
  | idle _ _ _ _ h => exact h
  | todo h => exact absurd he h
  | loaded h => exact absurd he h
  | armed h => exact absurd he h
  | early h => exact absurd he h
  | marked h => exact absurd he h
  | taken h => exact absurd he h
  | waiting h => exact absurd he h
  | received h => exact absurd he h
  | copying _ _ _ h => exact h

/-- C66: while the host keeps asking, nothing is kept back. After a history in which it was never too early, let the main loop go round, the host ask
each end-point once, and the main loop go round again: the host has received every change of the keyboard and consumer reports, and the timer
will tick the keymap again. -/
theorem C66_delivered_partial (es : List Event) (n1 n2 : Nat) (h1 : 121 ≤ n1) (h2 : 121 ≤ n2)
    (h : Along Prompt State.new (es ++ List.replicate n1 .main ++ round ++ List.replicate n2 .main)) (hcf : (State.new.run es).configured = true) :
    let s := State.new.run (es ++ List.replicate n1 .main ++ round ++ List.replicate n2 .main)
    s.sent = true ∧ s.made = (State.new.run es).made ∧
    s.keyboard.host = changes (List.replicate 8 0) (s.made.map (·.keyboard)) ∧
    s.consumer.host = changes (List.replicate 4 0) (s.made.map (·.consumer)) := by
  intro s
  obtain ⟨hA, _⟩ := along_append.1 h
  obtain ⟨hB, _⟩ := along_append.1 hA
  obtain ⟨hC, _⟩ := along_append.1 hB
  obtain ⟨hl, _⟩ := live_run Live.new Inv.new hC
  obtain ⟨hl2, _⟩ := live_run Live.new Inv.new hA
  obtain ⟨_, hi⟩ := live_run Live.new Inv.new h
  have hr := ready hl hcf h1
  have hfr := mains_frame (State.new.run es) n1
  rw [run_append, run_append, round_run] at hl2
  have hg : Each (fun c st => c.pack = c.prev ∨ Gone c st) (((State.new.run es).run (List.replicate n1 .main)).run round) := by
    intro ep
    rw [round_run]
    have := poll_gone (hr ep)
    cases ep <;> exact this
  have hs := settled hl2 (hfr.1.trans hcf) hg h2
  have e : s = (((State.new.run es).run (List.replicate n1 .main)).run round).run (List.replicate n2 .main) := by
    show State.new.run _ = _
    rw [run_append, run_append, run_append]
  rw [← round_run, ← e] at hs
  have hk : s.keyboard.pack = s.keyboard.prev := hs .keyboard
  have hm : s.mouse.pack = s.mouse.prev := hs .mouse
  have hc : s.consumer.pack = s.consumer.prev := hs .consumer
  refine ⟨by simp [State.sent, hk, hm, hc], ?_, hi.keyboard.way.all hk, hi.consumer.way.all hc⟩
  rw [e, (mains_frame _ n2).2, round_run]
  exact hfr.2

section
/-- `A` is down; the main loop sends it, the host takes it. -/
def pressA : Made := ⟨[0, 0, 4, 0, 0, 0, 0, 0], [0, 0, 0, 0], [0, 0, 0, 0]⟩

instance : DecidablePred Made.Sized := fun _ => by unfold Made.Sized; infer_instance

/-- The hypotheses are met: the keyboard is plugged in, `A` is pressed, sent and received. -/
example : Along Prompt State.new ([.configure, .timer pressA] ++ List.replicate 121 .main ++ round ++ List.replicate 121 .main) ∧
    (State.new.run [.configure, .timer pressA]).configured = true ∧
    (State.new.run ([.configure, .timer pressA] ++ List.replicate 121 .main ++ round ++ List.replicate 121 .main)).keyboard.host = [pressA.keyboard] := by
  have hm : ∀ (n : Nat) (s : State), Along Prompt s (List.replicate n .main) := fun n => by
    induction n with
    | zero => exact fun _ => trivial
    | succ n ih => exact fun s => ⟨trivial, ih _⟩
  refine ⟨along_append.2 ⟨along_append.2 ⟨along_append.2 ⟨?_, hm _ _⟩, ?_⟩, hm _ _⟩, rfl, by decide +kernel⟩
  · refine ⟨trivial, ⟨by decide, fun ep i h => by cases h⟩, trivial⟩
  · have h1 : (State.new.run ([.configure, .timer pressA] ++ List.replicate 121 .main)).pc ≠ .at .keyboard .busy := by decide +kernel
    have h2 : (State.new.run ([.configure, .timer pressA] ++ List.replicate 121 .main)).pc ≠ .at .mouse .busy := by decide +kernel
    have h3 : (State.new.run ([.configure, .timer pressA] ++ List.replicate 121 .main)).pc ≠ .at .consumer .busy := by decide +kernel
    generalize State.new.run ([.configure, .timer pressA] ++ List.replicate 121 .main) = s at *
    exact ⟨h1, h2, h3, trivial⟩
end

/-! ## What goes wrong otherwise -/

/-- The end-point is marked busy, and nothing will mark it free. -/
def Dead (s : State) : Prop :=
  s.keyboard.pack ≠ s.keyboard.prev ∧ s.keyboard.sending = true ∧ s.keyboard.busy = true ∧ s.keyboard.ack = false ∧
  (s.pc.within .keyboard = none ∨ s.pc.within .keyboard = some .test ∨ s.pc.within .keyboard = some .choose)

theorem Dead.step {s : State} (h : Dead s) {e : Event} (he : e ≠ .reset) :
    Dead (s.step e) ∧ (s.step e).keyboard = s.keyboard ∧ (s.step e).made = s.made := by
  obtain ⟨h1, h2, h3, h4, h5⟩ := h
  cases e with
  | main =>
    obtain ⟨k, m, c, pc, cf, made⟩ := s
    show Dead (State.main _) ∧ (State.main _).keyboard = _ ∧ (State.main _).made = _
    cases pc with
    | top =>
      cases cf with
      | false => exact ⟨⟨h1, h2, h3, h4, h5⟩, rfl, rfl⟩
      | true => exact ⟨⟨h1, h2, h3, h4, .inr (.inl rfl)⟩, rfl, rfl⟩
    | «at» ep st =>
      cases ep with
      | keyboard =>
        simp only [Pc.within, if_true] at h5
        rcases h5 with h5 | h5 | h5 <;> cases h5
        · have : k.step false .test = (k, some .choose) := by simp only [Chan.step]; rw [if_pos (.inl h1)]
          simp only [State.main]
          rw [this]
          exact ⟨⟨h1, h2, h3, h4, .inr (.inr rfl)⟩, by simp⟩
        · have : k.step false .choose = (k, none) := by
            simp only [Chan.step]; rw [if_neg (by rw [h2]; decide), if_neg (by rw [h3]; decide)]
          simp only [State.main]
          rw [this]
          exact ⟨⟨h1, h2, h3, h4, .inl rfl⟩, by simp⟩
      | mouse =>
        simp only [State.main]
        refine ⟨⟨h1, h2, h3, h4, .inl ?_⟩, by simp⟩
        cases (m.step true st).2 <;> rfl
      | consumer =>
        simp only [State.main]
        refine ⟨⟨h1, h2, h3, h4, .inl ?_⟩, by simp⟩
        cases (c.step false st).2 <;> rfl
  | timer r =>
    have : s.step (.timer r) = s := by simp [State.step, State.timer, State.sent, h1]
    rw [this]; exact ⟨⟨h1, h2, h3, h4, h5⟩, rfl, rfl⟩
  | poll ep =>
    cases ep with
    | keyboard =>
      have : s.step (.poll .keyboard) = s := by simp only [State.step]; rw [poll_free h4]
      rw [this]; exact ⟨⟨h1, h2, h3, h4, h5⟩, rfl, rfl⟩
    | mouse => exact ⟨⟨h1, h2, h3, h4, h5⟩, rfl, rfl⟩
    | consumer => exact ⟨⟨h1, h2, h3, h4, h5⟩, rfl, rfl⟩
  | configure => exact ⟨⟨h1, h2, h3, h4, h5⟩, rfl, rfl⟩
  | reset => exact absurd rfl he

theorem Dead.run {fs : List Event} {s : State} (h : Dead s) (hf : Event.reset ∉ fs) :
    (s.run fs).keyboard = s.keyboard ∧ (s.run fs).made = s.made := by
  induction fs generalizing s with
  | nil => exact ⟨rfl, rfl⟩
  | cons e fs ih =>
    obtain ⟨h1, h2, h3⟩ := h.step (e := e) (fun he => hf (by simp [he]))
    obtain ⟨h4, h5⟩ := ih h1 (fun h => hf (by simp [h]))
    exact ⟨h4.trans h2, h5.trans h3⟩

instance (s : State) : Decidable (Dead s) := by unfold Dead; infer_instance

/-- C66 does not hold of every history: if the host takes the report between the two lines of `USBFS_Endp_DataUp` that let it and that mark the
end-point busy, the keyboard is dead. Whatever happens later, until a reset of the bus: the keymap is not ticked, and no keyboard report
is sent. -/
theorem C66_early_refuted (fs : List Event) (h : Event.reset ∉ fs) :
    let s := State.new.run ([.configure, .timer pressA] ++ List.replicate 5 .main ++ [.poll .keyboard] ++ List.replicate 2 .main ++ fs)
    s.made = [pressA] ∧ s.keyboard.host = [pressA.keyboard] ∧ s.sent = false := by
  have hd : Dead (State.new.run ([.configure, .timer pressA] ++ List.replicate 5 .main ++ [.poll .keyboard] ++ List.replicate 2 .main)) := by decide
  obtain ⟨h1, h2⟩ := hd.run h
  dsimp only
  rw [run_append _ _ fs, h1, h2]
  refine ⟨by decide, by decide, ?_⟩
  have hne := hd.1
  rw [← h1] at hne
  unfold State.sent
  rw [decide_eq_false hne]
  rfl

/-- The hypothesis of `C66_delivered_partial` that the history does not meet is the one about the host being too early. -/
example : Along Calm State.new ([.configure, .timer pressA] ++ List.replicate 5 .main ++ [.poll .keyboard] ++ List.replicate 2 .main) ∧
    (State.new.run ([.configure, .timer pressA] ++ List.replicate 5 .main)).pc = .at .keyboard .busy := by
  refine ⟨⟨trivial, ⟨by decide, fun ep i h => by cases h⟩, ?_⟩, by decide⟩
  exact ⟨trivial, trivial, trivial, trivial, trivial, trivial, trivial, trivial, trivial⟩

/-- `A` and `B` are down. -/
def pressB : Made := ⟨[0, 0, 4, 5, 0, 0, 0, 0], [0, 0, 0, 0], [0, 0, 0, 0]⟩

/-- Nor if the timer interrupt comes while the packet that has been received is copied: the report of `B` is taken for one that has been
sent. -/
theorem C66_torn_refuted :
    let s := State.new.run ([.configure, .timer pressA] ++ List.replicate 7 .main ++ [.poll .keyboard] ++ List.replicate 8 .main ++
      [.timer pressB] ++ List.replicate 121 .main ++ round ++ List.replicate 121 .main)
    s.sent = true ∧ s.made = [pressA, pressB] ∧ s.keyboard.host = [pressA.keyboard] := by decide +kernel

/-- Nor if the bus is reset while a report waits for the host. -/
theorem C66_reset_refuted :
    let s := State.new.run ([.configure, .timer pressA] ++ List.replicate 7 .main ++ [.reset, .configure] ++
      List.replicate 121 .main ++ round ++ List.replicate 121 .main)
    s.sent = true ∧ s.made = [pressA] ∧ s.keyboard.host = [] := by decide +kernel

/-! ## The mouse -/

theorem Skims.weaken {α : Type} {hs ms : List α} {m : α} (h : Skims hs ms) : Skims hs (ms ++ [m]) := by
  induction h with
  | done => exact .done
  | take _ ih => exact .take ih
  | skip _ ih => exact .skip ih

theorem Skims.single {α : Type} (m : α) : ∀ ms : List α, Skims [m] (ms ++ [m])
  | [] => .take .done
  | _ :: ms => .skip (Skims.single m ms)

theorem Skims.snoc {α : Type} {hs ms : List α} {m : α} (h : Skims hs ms) : Skims (hs ++ [m]) (ms ++ [m]) := by
  induction h with
  | @done ms => exact Skims.single m ms
  | take _ ih => exact .take ih
  | skip _ ih => exact .skip ih

theorem Skims.front {α : Type} {hs xs ms : List α} (h : Skims (hs ++ xs) ms) : Skims hs ms := by
  generalize hg : hs ++ xs = gs at h
  induction h generalizing hs with
  | done => rw [(List.append_eq_nil_iff.1 hg).1]; exact .done
  | @take m hs' ms _ ih =>
    cases hs with
    | nil => exact .done
    | cons y ys => simp only [List.cons_append, List.cons.injEq] at hg; rw [hg.1]; exact .take (ih hg.2)
  | skip _ ih => exact .skip (ih hg)

theorem Skims.again {α : Type} {hs xs ms : List α} {x : α} (h : Skims (hs ++ x :: xs) ms) : Skims (hs ++ x :: x :: xs) ms := by
  generalize hg : hs ++ x :: xs = gs at h
  induction h generalizing hs with
  | done => simp at hg
  | @take m hs' ms h ih =>
    cases hs with
    | nil => simp only [List.nil_append, List.cons.injEq] at hg; obtain ⟨h1, h2⟩ := hg; subst h1; subst h2; exact .take (.take h)
    | cons y ys => simp only [List.cons_append, List.cons.injEq] at hg; rw [hg.1]; exact .take (ih hg.2)
  | skip _ ih => exact .skip (ih hg)

/-- The mouse reports the host has and may get. -/
structure Along2 (c : Chan) (st : Option Stage) (ms : List (List Byte)) : Prop where
  pack : Skims (c.host ++ [c.pack]) ms
  buf : c.ack = true ∨ st = some .ack → Skims (c.host ++ [c.buf, c.pack]) ms

theorem Along2.step {c : Chan} {b : Bool} {st : Stage} {ms} (h : Along2 c (some st) ms) : Along2 (c.step b st).1 (c.step b st).2 ms := by
  cases st with
  | test => refine ⟨h.pack, fun hc => h.buf (.inl (hc.resolve_right ?_))⟩; simp only [Chan.step]; split <;> simp
  | choose =>
    have : (c.step b .choose).1 = c ∧ (c.step b .choose).2 ≠ some .ack := by
      simp only [Chan.step]; split
      · exact ⟨rfl, by split <;> simp⟩
      · split <;> simp
    rw [this.1]; exact ⟨h.pack, fun hc => h.buf (.inl (hc.resolve_right this.2))⟩
  | load => exact ⟨h.pack, fun _ => h.pack.again⟩
  | ack => exact ⟨h.pack, fun _ => h.buf (.inr rfl)⟩
  | busy => exact ⟨h.pack, fun hc => h.buf (.inl (hc.resolve_right (by simp [Chan.step])))⟩
  | mark => exact ⟨h.pack, fun hc => h.buf (.inl (hc.resolve_right (by simp [Chan.step])))⟩
  | copy i =>
    by_cases hi : i < c.pack.length
    · have : (c.step b (.copy i)) = ({ c with prev := c.prev.set i c.pack[i] }, some (.copy (i + 1))) := by simp [Chan.step, hi]
      rw [this]; exact ⟨h.pack, fun hc => h.buf (.inl (hc.resolve_right (by simp)))⟩
    · have : (c.step b (.copy i)) = ({ c with sending := false }, none) := by simp [Chan.step, hi]
      rw [this]; exact ⟨h.pack, fun hc => h.buf (.inl (hc.resolve_right (by simp)))⟩

theorem Along2.poll {c : Chan} {st} {ms} (h : Along2 c st ms) : Along2 c.poll st ms := by
  cases ha : c.ack with
  | false => rw [poll_free ha]; exact h
  | true =>
    have : c.poll = { c with host := c.host ++ [c.buf], ack := false, busy := false } := by simp [Chan.poll, ha]
    rw [this]
    have hb := h.buf (.inl ha)
    exact ⟨by simpa using hb, fun _ => by simpa using hb.again⟩

theorem Along2.fresh {c : Chan} {st} {ms} (h : Along2 c st ms) (r : List Byte) : Along2 { c with pack := r } st (ms ++ [r]) := by
  refine ⟨h.pack.front.snoc, fun hc => ?_⟩
  have := h.buf hc
  rw [show c.host ++ [c.buf, c.pack] = (c.host ++ [c.buf]) ++ [c.pack] by simp] at this
  show Skims (c.host ++ [c.buf, r]) _
  rw [show c.host ++ [c.buf, r] = (c.host ++ [c.buf]) ++ [r] by simp]
  exact this.front.snoc

theorem Along2.enter {c : Chan} {ms} (h : Along2 c none ms) : Along2 c (some .test) ms :=
  ⟨h.pack, fun hc => h.buf (.inl (hc.resolve_right (by simp)))⟩

theorem within_next (ep e : Ep) : e.next.within ep = none ∨ e.next.within ep = some .test := by
  cases e <;> cases ep <;> simp [Ep.next, Pc.within]

theorem along2_step {s : State} (h : ∀ ep, ep = .mouse → Along2 (s.chan ep) (s.pc.within ep) (List.replicate 4 0 :: s.made.map (·.mouse))) (e : Event) :
    ∀ ep, ep = .mouse → Along2 ((s.step e).chan ep) ((s.step e).pc.within ep) (List.replicate 4 0 :: (s.step e).made.map (·.mouse)) := by
  intro ep hep
  have h' := h ep hep
  subst hep
  cases e with
  | main =>
    show Along2 (s.main.chan _) (s.main.pc.within _) (_ :: s.main.made.map _)
    rw [(main_frame s).2]
    cases hpc : s.pc with
    | top =>
      unfold State.main
      rw [hpc] at h' ⊢
      dsimp only
      split
      · exact h'
      · rw [hpc]; exact h'
    | «at» e st =>
      rw [main_at hpc, put_within]
      rw [hpc] at h'
      by_cases hee : Ep.mouse = e
      · subst hee
        rw [if_pos rfl]
        have hw : (Pc.at .mouse st).within .mouse = some st := by simp [Pc.within]
        rw [hw] at h'
        have h2 := h'.step (b := Ep.mouse.resend)
        have : (Ep.mouse.after ((s.chan .mouse).step Ep.mouse.resend st).2).within .mouse = ((s.chan .mouse).step Ep.mouse.resend st).2 := by
          cases ((s.chan .mouse).step Ep.mouse.resend st).2 <;> rfl
        rw [this]; exact h2
      · rw [if_neg hee]
        have hw : (Pc.at e st).within .mouse = none := by simp only [Pc.within]; rw [if_neg (fun h => hee h.symm)]
        rw [hw] at h'
        cases ((s.chan e).step e.resend st).2 with
        | some st' =>
          have : (e.after (some st')).within .mouse = none := by simp only [Ep.after, Pc.within]; rw [if_neg (fun h => hee h.symm)]
          rw [this]; exact h'
        | none =>
          show Along2 _ (e.next.within .mouse) _
          rcases within_next .mouse e with h | h <;> rw [h]
          · exact h'
          · exact h'.enter
  | timer r =>
    show Along2 ((s.timer r).chan _) ((s.timer r).pc.within _) (_ :: (s.timer r).made.map _)
    unfold State.timer
    split
    · simp only [List.map_append, List.map_cons, List.map_nil]
      exact h'.fresh r.mouse
    · exact h'
  | poll ep =>
    cases ep with
    | keyboard => exact h'
    | mouse => exact h'.poll
    | consumer => exact h'
  | configure => exact h'
  | reset => exact ⟨h'.pack, fun hc => h'.buf (.inr (hc.resolve_left (by simp [State.step, State.chan, Chan.reset])))⟩

/-- C67: in every history, the mouse reports the host receives are reports of the keymap, in their order; some may be skipped and some may be
received more than once. -/
theorem C67_order_partial (es : List Event) :
    let s := State.new.run es
    Skims s.mouse.host (List.replicate 4 0 :: s.made.map (·.mouse)) := by
  suffices ∀ s : State, (∀ ep, ep = .mouse → Along2 (s.chan ep) (s.pc.within ep) (List.replicate 4 0 :: s.made.map (·.mouse))) →
      Along2 ((s.run es).chan .mouse) ((s.run es).pc.within .mouse) (List.replicate 4 0 :: (s.run es).made.map (·.mouse)) from
    (this State.new fun ep h => by subst h; exact ⟨.take .done, fun h => by rcases h with h | h <;> cases h⟩).pack.front
  induction es with
  | nil => exact fun s h => h _ rfl
  | cons e es ih => exact fun s h => ih (s.step e) (along2_step h e)

/-! ### A report that is not empty gets to the host -/

/-- The mouse reports, once the main loop has gone round: what is in the buffer is the packet. -/
def Loaded (c : Chan) (st : Option Stage) : Prop := (c.ack = true ∨ st = some .ack → c.buf = c.pack)

theorem Loaded.step {c : Chan} {b : Bool} {st : Stage} (h : Loaded c (some st)) : Loaded (c.step b st).1 (c.step b st).2 := by
  cases st with
  | test => refine fun hc => h (.inl (hc.resolve_right ?_)); simp only [Chan.step]; split <;> simp
  | choose =>
    have : (c.step b .choose).1 = c ∧ (c.step b .choose).2 ≠ some .ack := by
      simp only [Chan.step]; split
      · exact ⟨rfl, by split <;> simp⟩
      · split <;> simp
    rw [this.1]; exact fun hc => h (.inl (hc.resolve_right this.2))
  | load => exact fun _ => rfl
  | ack => exact fun _ => h (.inr rfl)
  | busy => exact fun hc => h (.inl (hc.resolve_right (by simp [Chan.step])))
  | mark => exact fun hc => h (.inl (hc.resolve_right (by simp [Chan.step])))
  | copy i =>
    by_cases hi : i < c.pack.length
    · have : (c.step b (.copy i)) = ({ c with prev := c.prev.set i c.pack[i] }, some (.copy (i + 1))) := by simp [Chan.step, hi]
      rw [this]; exact fun hc => h (.inl (hc.resolve_right (by simp)))
    · have : (c.step b (.copy i)) = ({ c with sending := false }, none) := by simp [Chan.step, hi]
      rw [this]; exact fun hc => h (.inl (hc.resolve_right (by simp)))

/-- `Loaded`, or the host has not had its chance yet. -/
def Clear (c : Chan) (st : Option Stage) : Prop := st = some .ack → c.buf = c.pack

theorem Clear.step {c : Chan} {b : Bool} {st : Stage} (_ : Clear c (some st)) : Clear (c.step b st).1 (c.step b st).2 := by
  cases st with
  | load => exact fun _ => rfl
  | test => intro hc; simp only [Chan.step] at hc; split at hc <;> simp at hc
  | choose => intro hc; simp only [Chan.step] at hc; split at hc; · (dsimp at hc; split at hc <;> simp at hc)
              · split at hc <;> simp at hc
  | ack => exact fun hc => by simp [Chan.step] at hc
  | busy => exact fun hc => by simp [Chan.step] at hc
  | mark => exact fun hc => by simp [Chan.step] at hc
  | copy i => intro hc; simp only [Chan.step] at hc; split at hc <;> simp at hc

theorem step_waits {c : Chan} {b : Bool} {st : Stage} (h : Waits c (some st)) : Waits (c.step b st).1 (c.step b st).2 := by
  obtain ⟨h1, h2, h3, h4⟩ := h
  rcases h4 with h4 | h4 | h4 <;> cases h4
  · refine ⟨h1, h2, h3, ?_⟩
    simp only [Chan.step]; split <;> simp
  · have : c.step b .choose = (c, none) := by simp [Chan.step, h1, h3]
    rw [this]; exact ⟨h1, h2, h3, .inl rfl⟩

theorem main_pack (s : State) (ep : Ep) : (s.main.chan ep).pack = (s.chan ep).pack := by
  cases hpc : s.pc with
  | top =>
    unfold State.main
    rw [hpc]
    dsimp only
    split
    · cases ep <;> rfl
    · rfl
  | «at» e st =>
    rw [main_at hpc, put_within]
    split
    · next h => subst h; exact (step_lengths _ _ _).2
    · rfl

theorem mains_pack (ep : Ep) : ∀ (n : Nat) (s : State), ((s.run (List.replicate n .main)).chan ep).pack = (s.chan ep).pack
  | 0, _ => rfl
  | n + 1, s => (mains_pack ep n s.main).trans (main_pack s ep)

theorem poll_pack (c : Chan) : c.poll.pack = c.pack := by unfold Chan.poll; split <;> rfl

theorem mouse_last (es : List Event) (s : State) (h : s.mouse.pack = (s.made.map (·.mouse)).getLastD (List.replicate 4 0)) :
    (s.run es).mouse.pack = ((s.run es).made.map (·.mouse)).getLastD (List.replicate 4 0) := by
  induction es generalizing s with
  | nil => exact h
  | cons e es ih =>
    refine ih _ ?_
    cases e with
    | main => show s.main.mouse.pack = (s.main.made.map _).getLastD _; rw [(main_frame s).2, ← h]; exact main_pack s .mouse
    | timer r =>
      show (s.timer r).mouse.pack = ((s.timer r).made.map _).getLastD _
      unfold State.timer
      split
      · simp
      · exact h
    | poll ep =>
      cases ep with
      | keyboard => exact h
      | mouse => exact (poll_pack _).trans h
      | consumer => exact h
    | configure => exact h
    | reset => exact h

theorem clear {s : State} (hl : Live s) {n : Nat} (hn : 60 ≤ n) : Each Clear (s.run (List.replicate n .main)) := by
  obtain ⟨k0, hk0, h0⟩ := to_top hl
  have : n = k0 + (n - k0) := by omega
  rw [this, run_mains_add]
  refine Each.mains (fun h _ => h.step) (fun c _ hc => by cases hc) (hl.mains k0) (fun ep => ?_) _
  rw [top_within h0]
  exact fun hc => by cases hc

theorem mouse_waits {s : State} (hl : Live s) (hcf : s.configured = true) (hx : ∃ x ∈ s.mouse.pack, x ≠ 0) {n : Nat} (hn : 182 ≤ n) :
    Waits (s.run (List.replicate n .main)).mouse ((s.run (List.replicate n .main)).pc.within .mouse) := by
  obtain ⟨k0, hk0, h0⟩ := to_top hl
  have hl0 := hl.mains k0
  have hc0 := (mains_frame s k0).1.trans hcf
  have hx0 : ∃ x ∈ ((s.run (List.replicate k0 .main)).chan .mouse).pack, x ≠ 0 := by rw [mains_pack]; exact hx
  obtain ⟨k1, hk1, h1, hp⟩ := loop hl0 h0 hc0
  have hl1 := hl0.mains k1
  have hc1 := (mains_frame _ k1).1.trans hc0
  have hx1 : ∃ x ∈ (((s.run (List.replicate k0 .main)).run (List.replicate k1 .main)).chan .mouse).pack, x ≠ 0 := by rw [mains_pack]; exact hx0
  obtain ⟨k2, hk2, h2, hp'⟩ := loop hl1 h1 hc1
  have hw : Waits ((((s.run (List.replicate k0 .main)).run (List.replicate k1 .main)).run (List.replicate k2 .main)).chan .mouse) none := by
    have t1 := (hp .mouse).turn rfl hx0
    have t2 := (hp' .mouse).turn rfl hx1
    have hf := (hl0.chan .mouse).orderly
    rw [top_within h0] at hf
    generalize hst : (none : Option Stage) = st at hf
    cases hf with
    | between g1 g2 _ =>
      subst hst
      cases hs : ((s.run (List.replicate k0 .main)).chan .mouse).sending with
      | false => have := t1.1 hs; rw [t2.2.2 this]; exact this
      | true =>
        cases ha : ((s.run (List.replicate k0 .main)).chan .mouse).ack with
        | false => exact t2.1 (t1.2.1 ⟨hs, ha, g1.trans ha, .inl rfl⟩).1
        | true =>
          have w : Waits ((s.run (List.replicate k0 .main)).chan .mouse) none := ⟨hs, ha, g1.trans ha, .inl rfl⟩
          have e1 := t1.2.2 w
          have w1 := w
          rw [← e1] at w1
          rw [t2.2.2 w1]; exact w1
    | load => cases hst
    | ack => cases hst
    | busy => cases hst
    | mark => cases hst
    | copy => cases hst
  have : n = k0 + k1 + k2 + (n - k0 - k1 - k2) := by omega
  rw [this, run_mains_add, run_mains_add, run_mains_add]
  have hkeep : ∀ (m : Nat) (s : State), Waits s.mouse (s.pc.within .mouse) →
      Waits (s.run (List.replicate m .main)).mouse ((s.run (List.replicate m .main)).pc.within .mouse) := by
    intro m
    induction m with
    | zero => exact fun s h => h
    | succ m ih =>
      intro s h
      refine ih s.main ?_
      cases hpc : s.pc with
      | top =>
        unfold State.main
        rw [hpc] at h ⊢
        dsimp only
        split
        · exact h
        · rw [hpc]; exact h
      | «at» e st =>
        show Waits (s.main.chan .mouse) _
        rw [main_at hpc, put_within]
        rw [hpc] at h
        by_cases hee : Ep.mouse = e
        · subst hee
          rw [if_pos rfl]
          have h2 := step_waits (b := Ep.mouse.resend) (c := s.mouse) (st := st) h
          have : (Ep.mouse.after ((s.chan .mouse).step Ep.mouse.resend st).2).within .mouse = ((s.chan .mouse).step Ep.mouse.resend st).2 := by
            cases ((s.chan .mouse).step Ep.mouse.resend st).2 <;> rfl
          rw [this]; exact h2
        · rw [if_neg hee]
          obtain ⟨w1, w2, w3, _⟩ := h
          refine ⟨w1, w2, w3, ?_⟩
          cases ((s.chan e).step e.resend st).2 with
          | some st' => left; simp only [Ep.after, Pc.within]; rw [if_neg (fun h => hee h.symm)]
          | none => rcases within_next .mouse e with h | h
                    · exact .inl h
                    · exact .inr (.inl h)
  refine hkeep _ _ ?_
  rw [top_within h2]
  exact hw

/-- C67: a mouse report that is not empty gets to the host: after a history in which the host was never too early, and after the keymap's last mouse
report, let the main loop go round and the host ask, twice: what the host received last is that report. -/
theorem C67_held_partial (es : List Event) (n1 n2 : Nat) (h1 : 60 ≤ n1) (h2 : 182 ≤ n2)
    (h : Along Prompt State.new (es ++ List.replicate n1 .main ++ round ++ List.replicate n2 .main ++ round)) (hcf : (State.new.run es).configured = true)
    (r : List Byte) (hr : ((State.new.run es).made.map (·.mouse)).getLast? = some r) (hx : ∃ x ∈ r, x ≠ 0) :
    (State.new.run (es ++ List.replicate n1 .main ++ round ++ List.replicate n2 .main ++ round)).mouse.host.getLast? = some r := by
  obtain ⟨hA, _⟩ := along_append.1 h
  obtain ⟨hA2, _⟩ := along_append.1 hA
  obtain ⟨hB, _⟩ := along_append.1 hA2
  obtain ⟨hC, _⟩ := along_append.1 hB
  obtain ⟨hl, _⟩ := live_run Live.new Inv.new hC
  obtain ⟨hl2, _⟩ := live_run Live.new Inv.new hA2
  have hc := clear hl h1
  have hpk : (State.new.run es).mouse.pack = r := by
    rw [mouse_last es State.new rfl, List.getLastD_eq_getLast?, hr]; rfl
  have hfr := (mains_frame (State.new.run es) n1).1.trans hcf
  have hp1 : ((State.new.run es).run (List.replicate n1 .main)).mouse.pack = r := (mains_pack .mouse n1 _).trans hpk
  rw [run_append, run_append, round_run] at hl2
  rw [run_append, run_append, run_append, run_append]
  generalize hs1 : (State.new.run es).run (List.replicate n1 .main) = s1 at *
  have hload : Each Loaded (s1.run round) := by
    intro ep
    have hclr := hc ep
    have ha : ∀ c : Chan, c.poll.ack = false := fun c => by unfold Chan.poll; split; · rfl
                                                            next h => simpa using h
    have hbf : ∀ c : Chan, c.poll.buf = c.buf := fun c => by unfold Chan.poll; split <;> rfl
    rw [round_run]
    intro hor
    rcases hor with hor | hor
    · cases ep <;> simp only [State.chan, ha] at hor <;> cases hor
    · have := hclr hor
      cases ep <;> simp only [State.chan, hbf, poll_pack] at this ⊢ <;> exact this
  have hload2 := Each.mains (P := Loaded) (fun h _ => h.step) (fun c h hc => h (.inl (hc.resolve_right (by simp)))) hl2 hload n2 .mouse
  have hw := mouse_waits (n := n2) hl2 hfr (by show ∃ x ∈ s1.mouse.poll.pack, x ≠ 0; rw [poll_pack, hp1]; exact hx) h2
  have hp2 := mains_pack .mouse n2 (s1.run round)
  rw [← round_run] at hw hload2
  generalize (s1.run round).run (List.replicate n2 .main) = s2 at *
  have hb : s2.mouse.buf = s2.mouse.pack := hload2 (.inl hw.2.1)
  have hp3 : s2.mouse.pack = r := hp2.trans (by rw [round_run]; exact (poll_pack _).trans hp1)
  rw [round_run]
  show s2.mouse.poll.host.getLast? = some r
  simp [Chan.poll, hw.2.1, hb, hp3]

/-! ### The empty report does not -/

/-- The empty report has been made, and will not be sent. -/
def Lost (s : State) : Prop :=
  s.mouse.pack = List.replicate 4 0 ∧ s.mouse.prev.length = 4 ∧ List.replicate 4 0 ∉ s.mouse.host ∧ (s.mouse.ack = true → s.mouse.buf ≠ List.replicate 4 0) ∧
  ((s.mouse.sending = true ∧ (s.mouse.busy = false → s.mouse.ack = false) ∧ (s.pc.within .mouse = none ∨ s.pc.within .mouse = some .test ∨ s.pc.within .mouse = some .choose ∨
      (s.mouse.ack = false ∧ ∃ i, s.pc.within .mouse = some (.copy i) ∧ i ≤ 4 ∧ s.mouse.prev.take i = (List.replicate 4 0).take i))) ∨
   (s.mouse.prev = List.replicate 4 0 ∧ s.mouse.ack = false ∧ (s.pc.within .mouse = none ∨ s.pc.within .mouse = some .test)))

theorem Lost.step {s : State} (h : Lost s) {e : Event} (he : ∀ r, e = .timer r → r.mouse = List.replicate 4 0) : Lost (s.step e) := by
  obtain ⟨h1, h2, h3, h4, h5⟩ := h
  cases e with
  | main =>
    show Lost s.main
    cases hpc : s.pc with
    | top =>
      unfold State.main
      rw [hpc]
      rw [hpc] at h5
      dsimp only
      split
      · exact ⟨h1, h2, h3, h4, h5⟩
      · exact ⟨h1, h2, h3, h4, by rw [hpc]; exact h5⟩
    | «at» ep st =>
      rw [main_at hpc]
      rw [hpc] at h5
      by_cases hep : ep = .mouse
      · subst hep
        have hw : (Pc.at .mouse st).within .mouse = some st := by simp [Pc.within]
        rw [hw] at h5
        rcases hc : s.mouse with ⟨pack, prev, se, bu, ak, buf, host⟩
        rw [hc] at h1 h2 h3 h4 h5
        dsimp only at h1 h2 h3 h4 h5
        subst h1
        simp only [State.chan, hc]
        rcases h5 with ⟨g1, g2, g3⟩ | ⟨g1, g2, g3⟩
        · subst g1
          rcases g3 with g | g | g | ⟨ga, i, g, gi, gt⟩ <;> cases g
          · refine ⟨rfl, h2, h3, h4, .inl ⟨rfl, g2, ?_⟩⟩
            simp only [Chan.step, State.put]
            split
            · exact .inr (.inr (.inl rfl))
            · exact .inl rfl
          · cases bu with
            | true => exact ⟨rfl, h2, h3, h4, .inl ⟨rfl, g2, .inl rfl⟩⟩
            | false => exact ⟨rfl, h2, h3, h4, .inl ⟨rfl, g2, .inr (.inr (.inr ⟨g2 rfl, 0, rfl, by decide, rfl⟩))⟩⟩
          · by_cases hi : i < 4
            · have : Chan.step Ep.mouse.resend ⟨List.replicate 4 0, prev, true, bu, ak, buf, host⟩ (.copy i) =
                  (⟨List.replicate 4 0, prev.set i (List.replicate 4 0)[i], true, bu, ak, buf, host⟩, some (.copy (i + 1))) := by
                simp [Chan.step, hi]
              rw [this]
              refine ⟨rfl, (List.length_set ..).trans h2, h3, h4, .inl ⟨rfl, g2, .inr (.inr (.inr ⟨ga, i + 1, rfl, hi, ?_⟩))⟩⟩
              exact take_set_succ (b := List.replicate 4 0) (by simpa using h2) (by simpa using hi) gt
            · have : Chan.step Ep.mouse.resend ⟨List.replicate 4 0, prev, true, bu, ak, buf, host⟩ (.copy i) =
                  (⟨List.replicate 4 0, prev, false, bu, ak, buf, host⟩, none) := by simp [Chan.step, hi]
              rw [this]
              have hi4 : i = 4 := by omega
              subst hi4
              rw [List.take_of_length_le (by omega), List.take_of_length_le (by simp)] at gt
              exact ⟨rfl, h2, h3, h4, .inr ⟨gt, ga, .inl rfl⟩⟩
        · rcases g3 with g | g <;> cases g
          subst g1
          have : Chan.step Ep.mouse.resend ⟨List.replicate 4 0, List.replicate 4 0, se, bu, ak, buf, host⟩ .test =
              (⟨List.replicate 4 0, List.replicate 4 0, se, bu, ak, buf, host⟩, none) := by simp [Chan.step]
          rw [this]
          exact ⟨rfl, h2, h3, h4, .inr ⟨rfl, g2, .inl rfl⟩⟩
      · have hm : ∀ (c : Chan) (pc : Pc), ({ (s.put ep c) with pc := pc } : State).mouse = s.mouse := fun c pc => by
          have := put_within s ep .mouse c pc
          rw [if_neg (fun h => hep h.symm)] at this
          exact this
        have hw : (Pc.at ep st).within .mouse = none := by simp only [Pc.within]; rw [if_neg hep]
        have hpn : (ep.after ((s.chan ep).step ep.resend st).2).within .mouse = none ∨ (ep.after ((s.chan ep).step ep.resend st).2).within .mouse = some .test := by
          cases ((s.chan ep).step ep.resend st).2 with
          | some st' => left; simp only [Ep.after, Pc.within]; rw [if_neg hep]
          | none => exact within_next .mouse ep
        unfold Lost
        rw [hm]
        refine ⟨h1, h2, h3, h4, ?_⟩
        rcases h5 with ⟨g1, g2, _⟩ | ⟨g1, g2, _⟩
        · exact .inl ⟨g1, g2, hpn.elim .inl fun h => .inr (.inl h)⟩
        · exact .inr ⟨g1, g2, hpn⟩
  | timer r =>
    show Lost (s.timer r)
    unfold State.timer
    split
    · have hr := he r rfl
      exact ⟨hr, h2, h3, h4, h5⟩
    · exact ⟨h1, h2, h3, h4, h5⟩
  | poll ep =>
    cases ep with
    | keyboard => exact ⟨h1, h2, h3, h4, h5⟩
    | consumer => exact ⟨h1, h2, h3, h4, h5⟩
    | mouse =>
      show Lost { s with mouse := s.mouse.poll }
      cases ha : s.mouse.ack with
      | false =>
        rw [poll_free ha]; exact ⟨h1, h2, h3, h4, h5⟩
      | true =>
        have : s.mouse.poll = { s.mouse with host := s.mouse.host ++ [s.mouse.buf], ack := false, busy := false } := by simp [Chan.poll, ha]
        rw [this]
        refine ⟨h1, h2, ?_, fun h => (by cases h), ?_⟩
        · show _ ∉ s.mouse.host ++ [s.mouse.buf]
          rw [List.mem_append, List.mem_singleton]
          exact fun h => h.elim h3 fun h => h4 ha h.symm
        · rcases h5 with ⟨g1, g2, g3⟩ | ⟨_, g2, _⟩
          · refine .inl ⟨g1, fun _ => rfl, g3.imp id (Or.imp id (Or.imp id fun ⟨ga, _⟩ => ?_))⟩
            rw [ha] at ga; cases ga
          · rw [ha] at g2; cases g2
  | configure => exact ⟨h1, h2, h3, h4, h5⟩
  | reset =>
    refine ⟨h1, h2, h3, fun h => (by cases h), ?_⟩
    rcases h5 with ⟨g1, g2, g3⟩ | ⟨g1, g2, g3⟩
    · exact .inl ⟨g1, fun _ => rfl, g3.imp id (Or.imp id (Or.imp id fun ⟨_, h⟩ => ⟨rfl, h⟩))⟩
    · exact .inr ⟨g1, rfl, g3⟩

theorem Lost.run {fs : List Event} {s : State} (h : Lost s) (hf : ∀ r, Event.timer r ∈ fs → r.mouse = List.replicate 4 0) : Lost (s.run fs) := by
  induction fs generalizing s with
  | nil => exact h
  | cons e fs ih => exact ih (h.step fun r he => hf r (by simp [he])) fun r hr => hf r (by simp [hr])

theorem mouse_keeps {r : List Byte} (e : Event) (s : State) (h : r ∈ s.mouse.host) : r ∈ (s.step e).mouse.host := by
  cases e with
  | main =>
    show r ∈ s.main.mouse.host
    have hs : ∀ (c : Chan) b st, (c.step b st).1.host = c.host := fun c b st => by
      cases st <;> simp only [Chan.step] <;> (try split) <;> (try split) <;> rfl
    unfold State.main
    split
    · split <;> exact h
    · exact h
    · show r ∈ (s.mouse.step true _).1.host
      rw [hs]; exact h
    · exact h
  | timer => show r ∈ (s.timer _).mouse.host; unfold State.timer; split <;> exact h
  | poll ep =>
    cases ep with
    | keyboard => exact h
    | mouse => show r ∈ s.mouse.poll.host; unfold Chan.poll; split
               · exact List.mem_append_left _ h
               · exact h
    | consumer => exact h
  | configure => exact h
  | reset => exact h

/-- The first mouse button is down; and no key is. -/
def click : Made := ⟨List.replicate 8 0, [1, 0, 0, 0], [0, 0, 0, 0]⟩
def nothing : Made := ⟨List.replicate 8 0, [0, 0, 0, 0], [0, 0, 0, 0]⟩

/-- C67 does not hold of the empty report: a mouse button is pressed, the host has received the report, and the report is on its way again, as it is almost
always while the button is held. The button is released: the host will not be told. Whatever happens later, as long as no other mouse report is made, every
report it has received has the button down. -/
theorem C67_release_refuted (fs : List Event) (hf : ∀ r, Event.timer r ∈ fs → r.mouse = [0, 0, 0, 0]) :
    let s := State.new.run ([.configure, .timer click] ++ List.replicate 20 .main ++ round ++ List.replicate 20 .main ++ [.timer nothing] ++ fs)
    [1, 0, 0, 0] ∈ s.mouse.host ∧ [0, 0, 0, 0] ∉ s.mouse.host := by
  have hl : Lost (State.new.run ([.configure, .timer click] ++ List.replicate 20 .main ++ round ++ List.replicate 20 .main ++ [.timer nothing])) := by
    refine ⟨by decide +kernel, by decide +kernel, by decide +kernel, by decide +kernel, .inl ⟨by decide +kernel, by decide +kernel, .inr (.inl (by decide +kernel))⟩⟩
  have hm : [1, 0, 0, 0] ∈ (State.new.run ([.configure, .timer click] ++ List.replicate 20 .main ++ round ++ List.replicate 20 .main ++ [.timer nothing])).mouse.host := by
    decide +kernel
  have hk : ∀ (fs : List Event) (s : State), [1, 0, 0, 0] ∈ s.mouse.host → [1, 0, 0, 0] ∈ (s.run fs).mouse.host := fun fs => by
    induction fs with
    | nil => exact fun s h => h
    | cons e fs ih => exact fun s h => ih _ (mouse_keeps e s h)
  dsimp only
  rw [run_append _ _ fs]
  exact ⟨hk fs _ hm, (hl.run hf).2.2.1⟩

/-- The history before is one that meets the hypotheses of the other claims. -/
example : Along Prompt State.new ([.configure, .timer click] ++ List.replicate 20 .main ++ round ++ List.replicate 20 .main ++ [.timer nothing]) := by
  have hm : ∀ (n : Nat) (s : State), Along Prompt s (List.replicate n .main) := fun n => by
    induction n with
    | zero => exact fun _ => trivial
    | succ n ih => exact fun s => ⟨trivial, ih _⟩
  refine along_append.2 ⟨along_append.2 ⟨along_append.2 ⟨along_append.2 ⟨?_, hm _ _⟩, ?_⟩, hm _ _⟩, ⟨by decide, ?_⟩, trivial⟩
  · exact ⟨trivial, ⟨by decide, fun ep i h => by cases h⟩, trivial⟩
  · have h1 : (State.new.run ([.configure, .timer click] ++ List.replicate 20 .main)).pc ≠ .at .keyboard .busy := by decide +kernel
    have h2 : (State.new.run ([.configure, .timer click] ++ List.replicate 20 .main)).pc ≠ .at .mouse .busy := by decide +kernel
    have h3 : (State.new.run ([.configure, .timer click] ++ List.replicate 20 .main)).pc ≠ .at .consumer .busy := by decide +kernel
    generalize State.new.run ([.configure, .timer click] ++ List.replicate 20 .main) = s at *
    exact ⟨h1, h2, h3, trivial⟩
  · have : (State.new.run ([.configure, .timer click] ++ List.replicate 20 .main ++ round ++ List.replicate 20 .main)).pc = .at .mouse .test := by decide +kernel
    rw [this]
    exact fun ep i h => by cases h

/-- And so does a history in which the button is held. -/
example : (State.new.run ([.configure, .timer click] ++ List.replicate 60 .main ++ round ++ List.replicate 182 .main ++ round)).mouse.host.getLast? = some [1, 0, 0, 0] := by
  decide +kernel

theorem read_changes (prev : List Byte) (rs : List (List Byte)) :
    Host.read (Host.keys prev) (changes prev rs) = Host.read (Host.keys prev) rs := by
  have hz : ∀ r : List Byte, (Host.keys r).filter (· ∉ Host.keys r) = [] := fun r => by
    rw [List.filter_eq_nil_iff]; simp
  induction rs generalizing prev with
  | nil => rfl
  | cons r rs ih =>
    rw [changes]
    split
    · next h => subst h; rw [ih, Host.read, hz]; rfl
    · rw [Host.read, Host.read, ih]

/-- C66: so what a computer reads from the reports it receives is what it would read from all the reports of the keymap. (With C64: the text of a
string macro; with C60: what the source of the keymap says.) -/
theorem C66_read_partial (es : List Event) (n1 n2 : Nat) (h1 : 121 ≤ n1) (h2 : 121 ≤ n2)
    (h : Along Prompt State.new (es ++ List.replicate n1 .main ++ round ++ List.replicate n2 .main)) (hcf : (State.new.run es).configured = true) :
    Host.read [] (State.new.run (es ++ List.replicate n1 .main ++ round ++ List.replicate n2 .main)).keyboard.host =
      Host.read [] ((State.new.run es).made.map (·.keyboard)) := by
  obtain ⟨_, hm, hk, _⟩ := C66_delivered_partial es n1 n2 h1 h2 h hcf
  rw [hk, hm]
  exact read_changes (List.replicate 8 0) _

end Verif.Usb
