import Verif.Lemmas.MacroRun
import Verif.Lemmas.VirtInv

/-!
# Invariants of the keyboard that types strings
-/

namespace Verif.Virt

theorem State.InvL.perm {s : State} {a b : List KeyOutput} (h : s.InvL a) (hp : a.Perm b) : s.InvL b :=
  ⟨fun ko => by rw [h.balanced ko, hp.count_eq], h.nodup, h.four, h.modified⟩

theorem State.InvL.down {s : State} {extra : List KeyOutput} (h : s.InvL extra) (k : KeyOutput) :
    State.InvL (k :: extra) { s with held := s.held ++ [.virt k] } := by
  refine ⟨?_, ?_, h.four, ?_⟩
  · intro ko
    have := h.balanced ko
    show (s.held ++ [Slot.virt k]).count _ = (s.active.map modKey).count ko + ((if s.caps = true ∧ ko = shiftKey then 1 else 0) + _)
    rw [count_virt, List.count_cons, this]
    have : (if (k == ko) = true then 1 else 0) = if ko = k then 1 else 0 := by
      by_cases hk : ko = k
      · simp [hk]
      · simp [hk, Ne.symm hk]
    rw [this]
    simp only [Nat.add_assoc]
  · show ((s.held ++ [Slot.virt k]).filterMap Slot.index).Nodup
    rw [List.filterMap_append, show [Slot.virt k].filterMap Slot.index = [] from rfl, List.append_nil]
    exact h.nodup
  · intro i hi
    obtain ⟨h1, ko, h2⟩ := h.modified i hi
    exact ⟨h1, ko, List.mem_append_left _ h2⟩

theorem State.InvL.up {s : State} {extra : List KeyOutput} {k : KeyOutput} (h : s.InvL (k :: extra)) :
    State.InvL extra { s with held := s.held.erase (.virt k) } := by
  refine ⟨?_, ?_, h.four, ?_⟩
  · intro ko
    have := h.balanced ko
    show (s.held.erase (Slot.virt k)).count _ = (s.active.map modKey).count ko + ((if s.caps = true ∧ ko = shiftKey then 1 else 0) + _)
    rw [List.count_cons] at this
    rw [List.count_erase, this]
    have h1 : (Slot.virt k == Slot.virt ko) = (k == ko) := by
      by_cases hk : k = ko
      · simp [hk]
      · have h' : Slot.virt k ≠ Slot.virt ko := fun e => hk (by injection e)
        rw [beq_eq_false_iff_ne.2 h', beq_eq_false_iff_ne.2 hk]
    rw [h1, ← Nat.add_assoc, ← Nat.add_assoc, Nat.add_sub_cancel, Nat.add_assoc]
  · show ((s.held.erase (Slot.virt k)).filterMap Slot.index).Nodup
    rw [Comp.index_erase]
    exact h.nodup
  · intro i hi
    obtain ⟨h1, ko, h2⟩ := h.modified i hi
    exact ⟨h1, ko, (List.mem_erase_of_ne (by simp)).2 h2⟩

theorem State.InvL.key {s : State} {extra : List KeyOutput} (h : s.InvL extra) {i : Nat} (hi : i ∉ s.held.filterMap Slot.index) (a : Act) :
    State.InvL extra { s with held := s.held ++ [.key i a false] } := by
  refine ⟨?_, nodup_snoc h.nodup hi, h.four, ?_⟩
  · intro ko; simp only [count_key]; exact h.balanced ko
  · intro j hj
    obtain ⟨h1, ko, h2⟩ := h.modified j hj
    exact ⟨h1, ko, List.mem_append_left _ h2⟩

end Verif.Virt

namespace Verif.Macro

open Virt (Pos Act Mode Slot)

variable {S : Search} {d ms : Nat} {layout : List Pos} {mode : Mode}

/-! ## Induction over the calls -/

/-- What every event and every advance of the clock preserves holds after every history. -/
theorem Queued.run_inv {P : State → InputEvent → Bool} {I : State → Prop}
    (hin : ∀ s e s', I s → P s e = true → s.input S d layout mode e = some s' → I s')
    (hadv : ∀ s s', I s → s.advance S d ms = some s' → I s') (calls : List Board.Call) {m m' : Queued}
    (hP : m.Always S d ms layout mode P calls) (h : I m.state) (hr : m.run S d ms layout mode calls = some m') : I m'.state := by
  induction calls generalizing m with
  | nil => cases hr; exact h
  | cons c cs ih =>
    simp only [Queued.run, Option.bind_eq_some_iff] at hr
    obtain ⟨m1, h1, h2⟩ := hr
    refine ih (hP.2 m1 h1) ?_ h2
    have take : ∀ e q m1, m.takes c = some e → Queued.take S d layout mode m.state (e :: q) = some m1 → I m1.state := by
      intro e q m1 ht hm
      simp only [Queued.take, Option.map_eq_some_iff] at hm
      obtain ⟨s', hs', rfl⟩ := hm
      exact hin _ _ _ h (hP.1 e ht) hs'
    cases c with
    | input e =>
      simp only [Queued.step, Queued.input] at h1
      split at h1
      · cases h1; exact h
      · rename_i hl
        split at h1
        · rename_i hd
          obtain ⟨e', q', hcons⟩ : ∃ e' q', m.queue ++ [e] = e' :: q' := by cases m.queue <;> exact ⟨_, _, rfl⟩
          rw [hcons] at h1
          exact take e' q' m1 (by simp only [Queued.takes, if_neg hl, if_pos hd, hcons]; rfl) h1
        · cases h1; exact h
    | tick =>
      simp only [Queued.step, Queued.tick, Option.bind_eq_some_iff, Option.map_eq_some_iff] at h1
      obtain ⟨m2, h3, s3, h4, rfl⟩ := h1
      refine hadv m2.state s3 ?_ h4
      unfold Queued.taken at h3
      split at h3
      · rename_i hc
        cases hq : m.queue with
        | nil => exact absurd hq hc.2
        | cons e q =>
          rw [hq] at h3
          exact take e q m2 (by simp only [Queued.takes, if_pos hc.1, hq]; rfl) h3
      · cases h3; exact h
    | report => cases h1; exact h

/-! ## The timers -/

/-- The timer will type the next letter. -/
def Timer.isNext : Timer → Bool
  | .next _ => true
  | _ => false

/-- The timer notes the end of a string. -/
def Timer.isDone : Timer → Bool
  | .done _ => true
  | _ => false

theorem after_some {s s' : State} {x : Timer} (h : s.after S d x = some s') :
    s' = { s with timers := s'.timers } ∧ s.timers.length < 32 ∧
      s'.timers = s.timers.take (S.pos (s.timers.map Prod.fst) (s.clock + d)) ++
        (s.clock + d, x) :: s.timers.drop (S.pos (s.timers.map Prod.fst) (s.clock + d)) := by
  unfold State.after at h
  split at h
  · simp only [Option.some.injEq] at h
    subst h
    exact ⟨rfl, by assumption, rfl⟩
  · cases h

theorem after_perm {s s' : State} {x : Timer} (h : s.after S d x = some s') : s'.timers.Perm ((s.clock + d, x) :: s.timers) := by
  rw [(after_some h).2.2]
  refine List.perm_middle.trans ?_
  rw [List.take_append_drop]

theorem after_sorted {s s' : State} {x : Timer} (h : s.after S d x = some s') (hs : (s.timers.map Prod.fst).Pairwise (· ≤ ·)) :
    (s'.timers.map Prod.fst).Pairwise (· ≤ ·) := by
  rw [(after_some h).2.2]
  have h1 := S.before _ (s.clock + d) hs
  have h2 := S.after _ (s.clock + d) hs
  generalize S.pos (s.timers.map Prod.fst) (s.clock + d) = k at h1 h2
  have hs' := hs
  rw [← List.take_append_drop k (s.timers.map Prod.fst), List.pairwise_append] at hs'
  simp only [List.map_append, List.map_cons, List.map_take, List.map_drop]
  rw [List.pairwise_append, List.pairwise_cons]
  refine ⟨hs'.1, ⟨h2, hs'.2.1⟩, ?_⟩
  intro a ha b hb
  rcases List.mem_cons.1 hb with rfl | hb
  · exact h1 a ha
  · exact hs'.2.2 a ha b hb

/-- What the next letter does to the rest of the state. -/
theorem letter_some {s s' : State} {i : Nat} {k : KeyOutput} {ks : List KeyOutput} {rest : List (List KeyOutput)} (hs : s.strings = (k :: ks) :: rest)
    (h : s.letter S d i = some s') :
    s'.board = { s.board with held := s.board.held ++ [Slot.virt k] } ∧ s.board.held.length < 16 ∧
      s'.strings = (if ks = [] then rest else ks :: rest) ∧ s'.clock = s.clock ∧ s'.typed = s.typed ++ [k] ∧ s'.asked = s.asked ∧
      ((s.timers.map Prod.fst).Pairwise (· ≤ ·) → (s'.timers.map Prod.fst).Pairwise (· ≤ ·)) ∧
      s'.timers.Perm ((if ks = [] ∧ rest ≠ [] then [(s.clock + d, .next i)] else []) ++
        (s.clock + d, if ks = [] then .done i else .next i) :: (s.clock + d, .up k) :: s.timers) := by
  unfold State.letter at h
  rw [hs] at h
  simp only [Option.bind_eq_some_iff] at h
  obtain ⟨s1, a1, s2, a2, s3, a3, a4⟩ := h
  have p1 := after_perm a1
  have p2 := after_perm a2
  have o1 := after_sorted a1
  have o2 := after_sorted a2
  have c1 := (after_some a1).1
  have c2 := (after_some a2).1
  have ck1 : s1.clock = s.clock := by rw [c1]
  have ck2 : s2.clock = s.clock := by rw [c2]; exact ck1
  simp only at p1 o1
  have h3 : s3 = { s2 with timers := s3.timers } ∧ ((s2.timers.map Prod.fst).Pairwise (· ≤ ·) → (s3.timers.map Prod.fst).Pairwise (· ≤ ·)) ∧
      s3.timers.Perm ((if ks = [] ∧ rest ≠ [] then [(s.clock + d, .next i)] else []) ++ s2.timers) := by
    by_cases hc : ks = [] ∧ rest ≠ []
    · rw [if_pos hc] at a3 ⊢
      refine ⟨(after_some a3).1, after_sorted a3, ?_⟩
      have := after_perm a3
      rw [ck2] at this
      exact this
    · rw [if_neg hc] at a3 ⊢
      simp only [Option.some.injEq] at a3
      subst a3
      exact ⟨rfl, id, .refl _⟩
  obtain ⟨c3, o3, p3⟩ := h3
  have hb : s3.board = s.board := by rw [c3, c2, c1]
  have hst : s3.strings = if ks = [] then rest else ks :: rest := by rw [c3, c2, c1]
  have hck : s3.clock = s.clock := by rw [c3]; exact ck2
  have hty : s3.typed = s.typed := by rw [c3, c2, c1]
  have has : s3.asked = s.asked := by rw [c3, c2, c1]
  unfold State.down at a4
  split at a4
  · rename_i h16
    rw [hb] at h16
    simp only [Option.some.injEq] at a4
    subst a4
    refine ⟨by rw [← hb], h16, hst, hck, by rw [← hty], has, fun h => o3 (o2 (o1 h)), ?_⟩
    refine p3.trans (List.Perm.append_left _ ?_)
    rw [ck1] at p2
    exact p2.trans (p1.cons _)
  · cases a4

theorem letter_nil {s : State} {i : Nat} (hs : s.strings = []) : s.letter S d i = some s := by
  unfold State.letter
  rw [hs]

/-! ## The invariant of every history -/

/-- The timers are in order; one types the next letter if and only if something is queued; no queued string
is empty; what was typed and what is queued is what was asked for. -/
structure State.Inv (d : Nat) (s : State) : Prop where
  sorted : (s.timers.map Prod.fst).Pairwise (· ≤ ·)
  token : s.timers.countP (fun p => p.2.isNext) = if s.strings = [] then 0 else 1
  ne : ∀ l ∈ s.strings, l ≠ []
  order : s.typed ++ s.strings.flatten = s.asked
  soon : ∀ p ∈ s.timers, p.1 ≤ s.clock + d

theorem State.Inv.new (n : Nat) : (State.new n).Inv d :=
  ⟨by simp [State.new], by simp [State.new], by simp [State.new], by simp [State.new], by simp [State.new]⟩

/-- The board does not matter. -/
theorem State.Inv.board {s : State} (h : s.Inv d) (b : Virt.State) : State.Inv d { s with board := b } :=
  ⟨h.sorted, h.token, h.ne, h.order, h.soon⟩

/-- The next letter: `s` has no timer for it. -/
theorem State.Inv.letter {s s' : State} {i : Nat} (h1 : (s.timers.map Prod.fst).Pairwise (· ≤ ·)) (h2 : s.timers.countP (fun p => p.2.isNext) = 0)
    (h3 : ∀ l ∈ s.strings, l ≠ []) (h4 : s.typed ++ s.strings.flatten = s.asked)
    (h5 : ∀ p ∈ s.timers, p.1 ≤ s.clock + d) (h : s.letter S d i = some s') : s'.Inv d := by
  cases hs : s.strings with
  | nil =>
    rw [letter_nil hs] at h
    cases h
    exact ⟨h1, by rw [h2, hs]; rfl, h3, h4, h5⟩
  | cons l rest =>
    cases l with
    | nil => exact absurd rfl (h3 [] (by rw [hs]; simp))
    | cons k ks =>
      obtain ⟨e1, e2, e3, e4, e5, e6, e7, e8⟩ := letter_some hs h
      rw [hs] at h3 h4
      refine ⟨e7 h1, ?_, ?_, ?_, ?_⟩
      · rw [e8.countP_eq, e3]
        by_cases hk : ks = []
        · cases rest with
          | nil => simp only [hk, List.countP_cons, List.countP_append, h2]; rfl
          | cons r rs => simp only [hk, List.countP_cons, List.countP_append, h2]; rfl
        · simp only [hk, false_and, if_false, List.nil_append, List.countP_cons, h2]
          rw [if_neg (by simp [Timer.isNext])]
          rfl
      · rw [e3]
        intro l hl
        split at hl
        · exact h3 l (List.mem_cons_of_mem _ hl)
        · rename_i hk
          rcases List.mem_cons.1 hl with rfl | hl
          · exact hk
          · exact h3 l (List.mem_cons_of_mem _ hl)
      · rw [e3, e5, e6, ← h4]
        split
        · rename_i hk; simp [hk]
        · simp
      · intro p hp
        rw [e4]
        have := e8.mem_iff.1 hp
        simp only [List.mem_append, List.mem_cons] at this
        rcases this with hp | rfl | rfl | hp
        · split at hp
          · simp only [List.mem_cons, List.not_mem_nil, or_false] at hp
            subst hp
            exact Nat.le_refl _
          · cases hp
        · exact Nat.le_refl _
        · exact Nat.le_refl _
        · exact h5 p hp

theorem request_cases {s s' : State} {i : Nat} {kos : List KeyOutput} (hr : s.request S d i kos = some s') :
    (s.strings = [] ∧ State.letter S d i { s with strings := [kos], asked := s.asked ++ kos } = some s') ∨
    (s.strings ≠ [] ∧ s.strings.length < 8 ∧ s' = { s with strings := s.strings ++ [kos], asked := s.asked ++ kos }) ∨
    (s.strings ≠ [] ∧ s' = s) := by
  unfold State.request at hr
  split at hr
  · rename_i hs; exact .inl ⟨hs, hr⟩
  · rename_i hs
    split at hr
    · rename_i hl; cases hr; exact .inr (.inl ⟨hs, hl, rfl⟩)
    · cases hr; exact .inr (.inr ⟨hs, rfl⟩)

theorem State.Inv.request {s s' : State} {i : Nat} {kos : List KeyOutput} (h : s.Inv d) (hk : kos ≠ []) (hr : s.request S d i kos = some s') : s'.Inv d := by
  unfold State.request at hr
  split at hr
  · rename_i hs
    have ht := h.token
    have ho := h.order
    rw [if_pos hs] at ht
    rw [hs] at ho
    refine State.Inv.letter (s := { s with strings := [kos], asked := s.asked ++ kos }) h.sorted ht ?_ ?_ h.soon hr
    · simpa using hk
    · simp only [List.flatten_nil, List.append_nil] at ho
      simp [ho]
  · rename_i hs
    split at hr
    · cases hr
      refine ⟨h.sorted, ?_, ?_, ?_, h.soon⟩
      · show s.timers.countP _ = if s.strings ++ [kos] = [] then 0 else 1
        rw [h.token, if_neg hs, if_neg (by simp)]
      · intro l hl
        simp only [List.mem_append, List.mem_cons, List.not_mem_nil, or_false] at hl
        rcases hl with hl | rfl
        · exact h.ne l hl
        · exact hk
      · have := h.order
        show s.typed ++ (s.strings ++ [kos]).flatten = s.asked ++ kos
        rw [← this]
        simp
    · cases hr; exact h

/-- No key of the layout types an empty string. -/
def NoEmpty (layout : List Pos) : Prop :=
  ∀ p ∈ layout, ∀ s kos, p.pick s = .string kos → kos ≠ []

theorem asks_some {s : State} {i : Nat} {kos : List KeyOutput} (h : s.asks layout i = some kos) :
    s.board.holds i = false ∧ ∃ p, layout[i]? = some p ∧ p.pick s.board = .string kos := by
  unfold State.asks at h
  split at h
  · cases h
  · rename_i hh
    refine ⟨by simpa using hh, ?_⟩
    split at h
    · rename_i p hp
      refine ⟨p, hp, ?_⟩
      cases hk : p.pick s.board with
      | string k => rw [hk] at h; simpa using h
      | _ => rw [hk] at h; cases h
    · cases h

theorem State.Inv.input {s s' : State} {e : InputEvent} (hne : NoEmpty layout) (h : s.Inv d) (hi : s.input S d layout mode e = some s') : s'.Inv d := by
  cases e with
  | press i =>
    simp only [State.input, State.press] at hi
    split at hi
    · rename_i kos ha
      split at hi
      · obtain ⟨_, p, hp, hpk⟩ := asks_some ha
        exact (h.board _).request (hne p (List.mem_of_getElem? hp) _ _ hpk) hi
      · cases hi
    · simp only [Option.map_eq_some_iff] at hi
      obtain ⟨b, _, rfl⟩ := hi
      exact h.board b
  | release i =>
    simp only [State.input, Option.some.injEq] at hi
    subst hi
    exact h.board _
  | vpress ko => cases hi
  | vrelease ko => cases hi

theorem State.Inv.advance {s s' : State} (h : s.Inv d) (ha : s.advance S d ms = some s') : s'.Inv d := by
  have hsn : ∀ p ∈ s.timers, p.1 ≤ s.clock + ms + d := fun p hp => by have := h.soon p hp; omega
  unfold State.advance at ha
  split at ha
  · rename_i t x rest ht
    split at ha
    · have hso := h.sorted
      have hto := h.token
      rw [ht] at hso hto
      have hsn := fun p hp => hsn p (by rw [ht]; exact List.mem_cons_of_mem _ hp)
      simp only [List.map_cons, List.pairwise_cons] at hso
      rw [List.countP_cons] at hto
      cases x with
      | up ko =>
        cases ha
        exact ⟨hso.2, by simpa [Timer.isNext] using hto, h.ne, h.order, hsn⟩
      | done i =>
        cases ha
        exact ⟨hso.2, by simpa [Timer.isNext] using hto, h.ne, h.order, hsn⟩
      | next i =>
        refine State.Inv.letter (s := { s with clock := s.clock + ms, timers := rest }) hso.2 ?_ h.ne h.order hsn ha
        have hn : rest.countP (fun p => p.2.isNext) + 1 = if s.strings = [] then 0 else 1 := hto
        show rest.countP _ = 0
        split at hn <;> omega
    · cases ha
      exact ⟨h.sorted, h.token, h.ne, h.order, hsn⟩
  · cases ha
    exact ⟨h.sorted, h.token, h.ne, h.order, hsn⟩

/-! ## What the firmware holds -/

theorem letters_perm {s s' : State} (h : s'.timers.Perm s.timers) : s'.letters.Perm s.letters := h.filterMap _

/-- The next letter is one more letter that is down. -/
theorem letter_board {s s' : State} {i : Nat} (hne : ∀ l ∈ s.strings, l ≠ []) (h : s.letter S d i = some s') (hb : s.board.InvL s.letters) :
    s'.board.InvL s'.letters := by
  cases hs : s.strings with
  | nil => rw [letter_nil hs] at h; cases h; exact hb
  | cons l rest =>
    cases l with
    | nil => exact absurd rfl (hne [] (by rw [hs]; simp))
    | cons k ks =>
      obtain ⟨e1, _, _, _, _, _, _, e8⟩ := letter_some hs h
      have hp : s'.letters.Perm (k :: s.letters) := by
        refine (e8.filterMap _).trans ?_
        rw [List.filterMap_append]
        have h1 : (if ks = [] ∧ rest ≠ [] then [(s.clock + d, Timer.next i)] else []).filterMap (fun p => p.2.letter) = [] := by
          split <;> rfl
        have h2 : (if ks = [] then Timer.done i else Timer.next i).letter = none := by split <;> rfl
        rw [h1, List.nil_append, List.filterMap_cons]
        simp only [h2]
        exact .refl _
      rw [e1]
      exact (hb.down k).perm hp.symm

theorem input_board {s s' : State} {e : InputEvent} (hne : NoEmpty layout) (h : s.Inv d) (hb : s.board.InvL s.letters)
    (hf : s.board.fifth e = false) (hi : s.input S d layout mode e = some s') : s'.board.InvL s'.letters := by
  cases e with
  | press i =>
    simp only [State.input, State.press] at hi
    split at hi
    · rename_i kos ha
      split at hi
      · obtain ⟨hh, p, hp, hpk⟩ := asks_some ha
        have h1 : (if mode = .onNextPress ∧ s.board.modified.isSome then s.board.unstick else s.board).InvL s.letters := by
          split; exact hb.unstick; exact hb
        have hx : i ∉ (if mode = .onNextPress ∧ s.board.modified.isSome then s.board.unstick else s.board).held.filterMap Slot.index := by
          have : i ∉ s.board.held.filterMap Slot.index := by
            intro hm
            rw [Comp.vholds_iff.2 hm] at hh
            cases hh
          split
          · rw [show s.board.unstick.held = Virt.letGo s.board.active s.board.held from rfl, Comp.index_letGo]; exact this
          · exact this
        have h2 := h1.key hx (.string kos)
        have hk := hne p (List.mem_of_getElem? hp) _ _ hpk
        rcases request_cases hi with ⟨hs, hi⟩ | ⟨_, _, rfl⟩ | ⟨_, rfl⟩
        · refine letter_board ?_ hi ?_
          · simpa using hk
          · exact h2
        · exact h2
        · exact h2
      · cases hi
    · simp only [Option.map_eq_some_iff] at hi
      obtain ⟨b, hb', rfl⟩ := hi
      exact hb.input (layout := layout) (mode := mode) (e := .press i) hf hb'
  | release i =>
    simp only [State.input, Option.some.injEq] at hi
    subst hi
    exact hb.release hf
  | vpress ko => cases hi
  | vrelease ko => cases hi

theorem advance_board {s s' : State} (h : s.Inv d) (hb : s.board.InvL s.letters) (ha : s.advance S d ms = some s') : s'.board.InvL s'.letters := by
  unfold State.advance at ha
  split at ha
  · rename_i t x rest ht
    split at ha
    · have hl : s.letters = x.letter.toList ++ rest.filterMap (fun p => p.2.letter) := by
        unfold State.letters
        rw [ht, List.filterMap_cons]
        cases x <;> rfl
      rw [hl] at hb
      cases x with
      | up ko => cases ha; exact hb.up
      | done i => cases ha; exact hb
      | next i => exact letter_board (s := { s with clock := s.clock + ms, timers := rest }) h.ne ha hb
    · cases ha; exact hb
  · cases ha; exact hb

/-! ## One letter at a time -/

theorem pos_end {l : List Nat} {t : Nat} (hs : l.Pairwise (· ≤ ·)) (h : ∀ x ∈ l, x < t) : S.pos l t = l.length := by
  have h1 := S.pos_le l t
  by_cases he : S.pos l t = l.length
  · exact he
  · have hlt : S.pos l t < l.length := by omega
    have hm : l[S.pos l t] ∈ l.drop (S.pos l t) := by
      rw [List.drop_eq_getElem_cons hlt]; exact List.mem_cons_self
    have := S.after l t hs _ hm
    have := h _ (List.getElem_mem hlt)
    omega

theorem pos_ties {l : List Nat} {t n : Nat} (hs : l.Pairwise (· ≤ ·)) (h : ∀ x ∈ l, x < t) (hn : 0 < n) :
    l.length < S.pos (l ++ List.replicate n t) t := by
  have hs' : (l ++ List.replicate n t).Pairwise (· ≤ ·) := by
    rw [List.pairwise_append]
    refine ⟨hs, List.pairwise_replicate.2 (.inr (Nat.le_refl _)), ?_⟩
    intro a ha b hb
    rw [(List.mem_replicate.1 hb).2]
    exact Nat.le_of_lt (h a ha)
  obtain ⟨k, hk, hg⟩ := S.hit _ t hs' (List.mem_append_right _ (List.mem_replicate.2 ⟨by omega, rfl⟩))
  rw [hk]
  by_cases hlt : k < l.length
  · rw [List.getElem?_append_left hlt] at hg
    have := h t (List.mem_of_getElem? hg)
    omega
  · omega

/-- The timers of the typed letter come last: first its release, then what follows. -/
theorem letter_seq {s s' : State} {i : Nat} {k : KeyOutput} {ks : List KeyOutput} {rest : List (List KeyOutput)} (hs : s.strings = (k :: ks) :: rest)
    (hd : 0 < d) (hso : (s.timers.map Prod.fst).Pairwise (· ≤ ·)) (hdue : ∀ p ∈ s.timers, p.1 ≤ s.clock) (h : s.letter S d i = some s') :
    ∃ tail, s'.timers = s.timers ++ (s.clock + d, .up k) :: tail ∧
      (ks ≠ [] → tail = [(s.clock + d, .next i)]) ∧ (ks = [] → rest = [] → tail = [(s.clock + d, .done i)]) ∧
      (ks = [] → rest ≠ [] → tail = [(s.clock + d, .done i), (s.clock + d, .next i)] ∨ tail = [(s.clock + d, .next i), (s.clock + d, .done i)]) := by
  have hlt : ∀ x ∈ s.timers.map Prod.fst, x < s.clock + d := by
    intro x hx
    obtain ⟨p, hp, rfl⟩ := List.mem_map.1 hx
    have := hdue p hp
    omega
  unfold State.letter at h
  rw [hs] at h
  simp only [Option.bind_eq_some_iff] at h
  obtain ⟨s1, a1, s2, a2, s3, a3, a4⟩ := h
  obtain ⟨c1, _, t1⟩ := after_some a1
  obtain ⟨c2, _, t2⟩ := after_some a2
  have ck1 : s1.clock = s.clock := by rw [c1]
  have ck2 : s2.clock = s.clock := by rw [c2]; exact ck1
  simp only at t1
  have hpe := pos_end (S := S) hso hlt
  rw [List.length_map] at hpe
  rw [hpe, List.take_length, List.drop_length] at t1
  rw [ck1, t1, List.map_append, List.map_cons, List.map_nil] at t2
  have hp2 : S.pos (s.timers.map Prod.fst ++ [s.clock + d]) (s.clock + d) = s.timers.length + 1 := by
    have h1 := pos_ties (S := S) (n := 1) hso hlt (by omega)
    have h2 := S.pos_le (s.timers.map Prod.fst ++ [s.clock + d]) (s.clock + d)
    simp only [List.length_map, List.replicate_one, List.length_append, List.length_cons, List.length_nil] at h1 h2
    omega
  have hl2 : (s.timers ++ [(s.clock + d, Timer.up k)]).length = s.timers.length + 1 := by simp
  rw [hp2, ← hl2, List.take_length, List.drop_length] at t2
  have hts : s'.timers = s3.timers := by
    unfold State.down at a4
    split at a4
    · cases a4; rfl
    · cases a4
  rw [hts]
  by_cases hc : ks = [] ∧ rest ≠ []
  · rw [if_pos hc] at a3
    obtain ⟨c3, _, t3⟩ := after_some a3
    rw [ck2] at t3
    rw [if_pos hc.1] at t2
    have hm : s2.timers.map Prod.fst = s.timers.map Prod.fst ++ List.replicate 2 (s.clock + d) := by
      rw [t2]; simp [List.replicate]
    have h1 := pos_ties (S := S) (n := 2) hso hlt (by omega)
    have h2 := S.pos_le (s.timers.map Prod.fst ++ List.replicate 2 (s.clock + d)) (s.clock + d)
    rw [← hm] at h1 h2
    generalize S.pos (s2.timers.map Prod.fst) (s.clock + d) = q at h1 h2 t3
    rw [hm] at h2
    simp only [List.length_map, List.length_append, List.length_replicate] at h1 h2
    have hq : q = s.timers.length + 1 ∨ q = s.timers.length + 2 := by omega
    rcases hq with rfl | rfl
    · refine ⟨[(s.clock + d, .next i), (s.clock + d, .done i)], ?_, fun h => absurd hc.1 h, fun _ h => absurd h hc.2, fun _ _ => .inr rfl⟩
      rw [t3, t2, List.take_append_of_le_length (by rw [hl2]; omega), List.drop_append_of_le_length (by rw [hl2]; omega)]
      rw [← hl2, List.take_length, List.drop_length]
      simp
    · refine ⟨[(s.clock + d, .done i), (s.clock + d, .next i)], ?_, fun h => absurd hc.1 h, fun _ h => absurd h hc.2, fun _ _ => .inl rfl⟩
      have hl3 : s2.timers.length = s.timers.length + 2 := by rw [t2]; simp
      rw [t3, ← hl3, List.take_length, List.drop_length, t2]
      simp
  · rw [if_neg hc] at a3
    simp only [Option.some.injEq] at a3
    subst a3
    rw [t2]
    by_cases hk : ks = []
    · rw [if_pos hk]
      exact ⟨[(s.clock + d, .done i)], by simp, fun h => absurd hk h, fun _ _ => rfl, fun _ h => absurd ⟨hk, h⟩ hc⟩
    · rw [if_neg hk]
      exact ⟨[(s.clock + d, .next i)], by simp, fun _ => rfl, fun h => absurd h hk, fun h => absurd h hk⟩

/-- No letter is down, and every timer is due. -/
def State.Up (s : State) : Prop :=
  (∀ p ∈ s.timers, p.1 ≤ s.clock ∧ p.2.letter = none) ∧ s.timers.countP (fun p => p.2.isDone) ≤ 1

/-- The letter `k` is down: its release comes before everything else, but for a note that a string is
finished. -/
def State.Down (d : Nat) (k : KeyOutput) (s : State) : Prop :=
  ∃ pre t tail, s.timers = pre ++ (t, .up k) :: tail ∧ t ≤ s.clock + d ∧ (∀ p ∈ pre, p.1 ≤ s.clock ∧ p.2.isDone = true) ∧ pre.length ≤ 1 ∧
    (∀ p ∈ tail, p.1 = t ∧ p.2.letter = none) ∧ tail.countP (fun p => p.2.isDone) ≤ 1

theorem State.Up.letters {s : State} (h : s.Up) : s.letters = [] := by
  unfold State.letters
  rw [List.filterMap_eq_nil_iff]
  exact fun p hp => (h.1 p hp).2

theorem isDone_letter {x : Timer} (h : x.isDone = true) : x.letter = none := by cases x <;> simp_all [Timer.isDone, Timer.letter]

theorem State.Down.letters {s : State} {k : KeyOutput} (h : s.Down d k) : s.letters = [k] := by
  obtain ⟨pre, t, tail, h1, _, h2, _, h4, _⟩ := h
  unfold State.letters
  rw [h1, List.filterMap_append, List.filterMap_cons]
  have e1 : pre.filterMap (fun p => p.2.letter) = [] := by
    rw [List.filterMap_eq_nil_iff]
    exact fun p hp => isDone_letter (h2 p hp).2
  have e2 : tail.filterMap (fun p => p.2.letter) = [] := by
    rw [List.filterMap_eq_nil_iff]
    exact fun p hp => (h4 p hp).2
  rw [e1, e2]
  rfl

/-- No letter is down, or one is. -/
def State.Seq (d : Nat) (s : State) : Prop := s.Up ∨ ∃ k, s.Down d k

/-- Typing the next letter when no letter is down and no timer is set for it. -/
theorem State.Up.letter {s s' : State} {i : Nat} {k : KeyOutput} {ks : List KeyOutput} {rest : List (List KeyOutput)} (hs : s.strings = (k :: ks) :: rest)
    (hd : 0 < d) (hso : (s.timers.map Prod.fst).Pairwise (· ≤ ·)) (hu : s.Up) (ht : s.timers.countP (fun p => p.2.isNext) = 0)
    (h : s.letter S d i = some s') : s'.Down d k := by
  obtain ⟨tail, h1, h2, h3, h4⟩ := letter_seq hs hd hso (fun p hp => (hu.1 p hp).1) h
  have hck := (letter_some hs h).2.2.2.1
  have hdone : ∀ p ∈ s.timers, p.2.isDone = true := by
    intro p hp
    have h1 := (hu.1 p hp).2
    have h2 := List.countP_eq_zero.1 ht p hp
    cases hx : p.2 <;> simp_all [Timer.letter, Timer.isNext, Timer.isDone]
  refine ⟨s.timers, _, tail, h1, by rw [hck]; exact Nat.le_refl _, ?_, ?_, ?_, ?_⟩
  · rw [hck]
    exact fun p hp => ⟨(hu.1 p hp).1, hdone p hp⟩
  · have := hu.2
    rw [List.countP_eq_length.2 hdone] at this
    exact this
  · by_cases hk : ks = []
    · by_cases hr : rest = []
      · rw [h3 hk hr]; simp [Timer.letter]
      · rcases h4 hk hr with rfl | rfl <;> simp [Timer.letter]
    · rw [h2 hk]; simp [Timer.letter]
  · by_cases hk : ks = []
    · by_cases hr : rest = []
      · rw [h3 hk hr]; simp [Timer.isDone]
      · rcases h4 hk hr with rfl | rfl <;> simp [Timer.isDone]
    · rw [h2 hk]; simp [Timer.isDone]

/-- The board and the strings do not matter. -/
theorem State.Seq.congr {s s' : State} (h : s.Seq d) (h1 : s'.timers = s.timers) (h2 : s'.clock = s.clock) : s'.Seq d := by
  unfold State.Seq State.Up State.Down at h ⊢
  rw [h1, h2]
  exact h

theorem State.Seq.up {s : State} (h : s.Seq d) (hl : s.letters = []) : s.Up := by
  rcases h with h | ⟨k, h⟩
  · exact h
  · rw [h.letters] at hl; cases hl

theorem State.Seq.input {s s' : State} {e : InputEvent} (hne : NoEmpty layout) (hd : 0 < d) (h : s.Inv d) (hq : s.Seq d)
    (ho : s.overlaps layout e = false) (hi : s.input S d layout mode e = some s') : s'.Seq d := by
  cases e with
  | press i =>
    simp only [State.input, State.press] at hi
    split at hi
    · rename_i kos ha
      split at hi
      · obtain ⟨hh, p, hp, hpk⟩ := asks_some ha
        have hk := hne p (List.mem_of_getElem? hp) _ _ hpk
        rcases request_cases hi with ⟨hs, hi⟩ | ⟨_, _, rfl⟩ | ⟨_, rfl⟩
        · have hs : s.strings = [] := hs
          have hl : s.letters = [] := by
            simp only [State.overlaps, ha, hs, Option.isSome_some, List.isEmpty_nil, Bool.true_and, Bool.not_eq_false', List.isEmpty_iff] at ho
            exact ho
          have hu := hq.up hl
          have ht := h.token
          rw [if_pos hs] at ht
          cases kos with
          | nil => exact absurd rfl hk
          | cons k ks =>
            refine .inr ⟨k, State.Up.letter (ks := ks) (rest := []) ?_ hd ?_ ?_ ?_ hi⟩
            · rfl
            · exact h.sorted
            · exact hu
            · exact ht
        · exact hq.congr rfl rfl
        · exact hq.congr rfl rfl
      · cases hi
    · simp only [Option.map_eq_some_iff] at hi
      obtain ⟨b, _, rfl⟩ := hi
      exact hq.congr rfl rfl
  | release i =>
    simp only [State.input, Option.some.injEq] at hi
    subst hi
    exact hq.congr rfl rfl
  | vpress ko => cases hi
  | vrelease ko => cases hi

/-- A tick types a letter only if none is down; it releases the letter that is down, or leaves it. -/
theorem State.Seq.advance {s s' : State} (hd : 0 < d) (h : s.Inv d) (hq : s.Seq d) (ha : s.advance S d ms = some s') :
    (s.Up ∧ s'.Up ∧ s'.typed = s.typed ∧ s'.board = s.board) ∨
    (∃ k, s.Up ∧ s'.Down d k ∧ s'.typed = s.typed ++ [k]) ∨
    (∃ k, s.Down d k ∧ s'.Down d k ∧ s'.typed = s.typed ∧ s'.board = s.board) ∨
    (∃ k, s.Down d k ∧ s'.Up ∧ s'.typed = s.typed) := by
  have htok := h.token
  have hso := h.sorted
  unfold State.advance at ha
  rcases hq with hu | ⟨k, hk⟩
  · split at ha
    · rename_i t x rest ht
      have hux : x.letter = none := (hu.1 (t, x) (by rw [ht]; simp)).2
      have hrest : ∀ p ∈ rest, p.1 ≤ s.clock + ms ∧ p.2.letter = none := by
        intro p hp
        have := hu.1 p (by rw [ht]; exact List.mem_cons_of_mem _ hp)
        exact ⟨by omega, this.2⟩
      have hcd := hu.2
      rw [ht, List.countP_cons] at hcd htok
      rw [ht] at hso
      simp only [List.map_cons, List.pairwise_cons] at hso
      split at ha
      · cases x with
        | up ko => cases hux
        | done i => cases ha; exact .inl ⟨hu, ⟨hrest, by show rest.countP _ ≤ 1; omega⟩, rfl, rfl⟩
        | next i =>
          replace htok : rest.countP (fun p => p.2.isNext) + 1 = if s.strings = [] then 0 else 1 := htok
          have hne0 : s.strings ≠ [] := by intro h0; rw [if_pos h0] at htok; omega
          rw [if_neg hne0] at htok
          cases hst : s.strings with
          | nil => exact absurd hst hne0
          | cons l rs =>
            cases l with
            | nil => exact absurd rfl (h.ne [] (by rw [hst]; simp))
            | cons k ks =>
              have hu' : State.Up { s with clock := s.clock + ms, timers := rest } := ⟨hrest, by show rest.countP _ ≤ 1; omega⟩
              refine .inr (.inl ⟨k, hu, State.Up.letter (s := { s with clock := s.clock + ms, timers := rest }) hst hd hso.2 hu' ?_ ha, ?_⟩)
              · show rest.countP _ = 0
                omega
              · exact (letter_some (s := { s with clock := s.clock + ms, timers := rest }) hst ha).2.2.2.2.1
      · rename_i hnd
        have := (hu.1 (t, x) (by rw [ht]; simp)).1
        exact absurd (Nat.le_trans this (Nat.le_add_right _ _)) hnd
    · rename_i ht
      cases ha
      refine .inl ⟨hu, ⟨?_, hu.2⟩, rfl, rfl⟩
      show ∀ p ∈ s.timers, _
      rw [ht]
      simp
  · have hk' := hk
    obtain ⟨pre, t, tail, h1, h6, h2, h3, h4, h5⟩ := hk
    have hpre : ∀ p ∈ pre, p.1 ≤ s.clock + ms ∧ p.2.isDone = true := fun p hp => ⟨by have := (h2 p hp).1; omega, (h2 p hp).2⟩
    cases pre with
    | cons p pre =>
      obtain ⟨tp, x⟩ := p
      have hx := h2 (tp, x) (by simp)
      rw [h1] at ha
      simp only [List.cons_append] at ha
      rw [if_pos (by have := hx.1; omega)] at ha
      cases x with
      | up ko => simp [Timer.isDone] at hx
      | next i => simp [Timer.isDone] at hx
      | done i =>
        cases ha
        refine .inr (.inr (.inl ⟨k, hk', ⟨pre, t, tail, rfl, by show t ≤ s.clock + ms + d; omega, fun p hp => hpre p (List.mem_cons_of_mem _ hp), ?_, h4, h5⟩, rfl, rfl⟩))
        simp only [List.length_cons] at h3
        omega
    | nil =>
      rw [h1] at ha
      simp only [List.nil_append] at ha
      split at ha
      · rename_i hdue
        cases ha
        refine .inr (.inr (.inr ⟨k, hk', ⟨fun p hp => ⟨?_, (h4 p hp).2⟩, h5⟩, rfl⟩))
        rw [(h4 p hp).1]
        exact hdue
      · cases ha
        exact .inr (.inr (.inl ⟨k, hk', ⟨[], t, tail, rfl, by show t ≤ s.clock + ms + d; omega, hpre, h3, h4, h5⟩, rfl, rfl⟩))

/-! ## The strings end -/

/-- How far away the end is: three timers for each letter, and the ticks until they are due. -/
def State.left (d ms : Nat) (s : State) : Nat :=
  s.strings.flatten.length * (3 * (1 + d / ms)) + (s.timers.map fun p => 1 + (p.1 - s.clock) / ms).sum

theorem State.left_le {s : State} (h : s.Inv d) : s.left d ms ≤ 3 * (1 + d / ms) * (s.strings.flatten.length + s.timers.length) := by
  have : ∀ l : List (Nat × Timer), (∀ p ∈ l, p.1 ≤ s.clock + d) → (l.map fun p => 1 + (p.1 - s.clock) / ms).sum ≤ 3 * (1 + d / ms) * l.length := by
    intro l hl
    induction l with
    | nil => simp
    | cons p l ih =>
      have h1 := ih fun q hq => hl q (List.mem_cons_of_mem _ hq)
      have h2 := hl p List.mem_cons_self
      have h3 : (p.1 - s.clock) / ms ≤ d / ms := Nat.div_le_div_right (by omega)
      simp only [List.map_cons, List.sum_cons, List.length_cons]
      rw [Nat.mul_add, Nat.mul_one]
      omega
  have := this s.timers h.soon
  unfold State.left
  rw [Nat.mul_comm s.strings.flatten.length]
  generalize 3 * (1 + d / ms) = w at this ⊢
  rw [Nat.mul_add]
  omega

theorem perm_sum {a b : List Nat} (h : a.Perm b) : a.sum = b.sum := by
  induction h with
  | nil => rfl
  | cons x _ ih => simp only [List.sum_cons, ih]
  | swap x y l => simp only [List.sum_cons]; omega
  | trans _ _ h1 h2 => exact h1.trans h2

theorem sum_later (l : List (Nat × Timer)) (c ms : Nat) :
    (l.map fun p => 1 + (p.1 - (c + ms)) / ms).sum ≤ (l.map fun p => 1 + (p.1 - c) / ms).sum := by
  induction l with
  | nil => simp
  | cons p l ih =>
    simp only [List.map_cons, List.sum_cons]
    have : (p.1 - (c + ms)) / ms ≤ (p.1 - c) / ms := Nat.div_le_div_right (by omega)
    omega

theorem sum_sooner {l : List (Nat × Timer)} {c ms : Nat} (hms : 0 < ms) (hl : ∀ p ∈ l, c + ms < p.1) (hne : l ≠ []) :
    (l.map fun p => 1 + (p.1 - (c + ms)) / ms).sum < (l.map fun p => 1 + (p.1 - c) / ms).sum := by
  cases l with
  | nil => exact absurd rfl hne
  | cons p l =>
    simp only [List.map_cons, List.sum_cons]
    have h1 := sum_later l c ms
    have h2 := hl p List.mem_cons_self
    have h3 : p.1 - c = p.1 - (c + ms) + ms := by omega
    have h4 : (p.1 - c) / ms = (p.1 - (c + ms)) / ms + 1 := by rw [h3, Nat.add_div_right _ hms]
    omega

/-- Every tick brings the end nearer. -/
theorem advance_left {s s' : State} (hms : 0 < ms) (h : s.Inv d) (hne : s.timers ≠ []) (ha : s.advance S d ms = some s') :
    s'.left d ms < s.left d ms := by
  unfold State.advance at ha
  split at ha
  · rename_i t x rest ht
    have hl := sum_later rest s.clock ms
    split at ha
    · cases x with
      | up ko =>
        cases ha
        unfold State.left
        simp only [ht, List.map_cons, List.sum_cons]
        generalize (t - s.clock) / ms = w
        omega
      | done i =>
        cases ha
        unfold State.left
        simp only [ht, List.map_cons, List.sum_cons]
        generalize (t - s.clock) / ms = w
        omega
      | next i =>
        have htok := h.token
        rw [ht, List.countP_cons] at htok
        replace htok : rest.countP (fun p => p.2.isNext) + 1 = if s.strings = [] then 0 else 1 := htok
        have hne0 : s.strings ≠ [] := by intro h0; rw [if_pos h0] at htok; omega
        cases hst : s.strings with
        | nil => exact absurd hst hne0
        | cons l rs =>
          cases l with
          | nil => exact absurd rfl (h.ne [] (by rw [hst]; simp))
          | cons k ks =>
            obtain ⟨_, _, e3, e4, _, _, _, e8⟩ := letter_some (s := { s with clock := s.clock + ms, timers := rest }) hst ha
            simp only at e3 e4 e8
            have hf : s'.strings.flatten.length + 1 = s.strings.flatten.length := by
              rw [e3, hst]
              split
              · rename_i hk; simp [hk]
              · simp
            have hp := perm_sum (e8.map fun p : Nat × Timer => 1 + (p.1 - (s.clock + ms)) / ms)
            have hd' : s.clock + ms + d - (s.clock + ms) = d := by omega
            simp only [List.map_append, List.map_cons, List.sum_append, List.sum_cons, hd'] at hp
            have h0 : ((if ks = [] ∧ rs ≠ [] then [(s.clock + ms + d, Timer.next i)] else []).map fun p => 1 + (p.1 - (s.clock + ms)) / ms).sum ≤ 1 + d / ms := by
              split
              · simp [hd']
              · simp
            unfold State.left
            rw [e4, hp, ht, ← hf, Nat.add_mul, Nat.one_mul]
            simp only [List.map_cons, List.sum_cons]
            generalize (t - s.clock) / ms = w
            generalize d / ms = v at *
            omega
    · rename_i hnd
      cases ha
      have hso := h.sorted
      rw [ht] at hso
      simp only [List.map_cons, List.pairwise_cons] at hso
      have := sum_sooner (l := s.timers) (c := s.clock) hms (by
        rw [ht]
        intro p hp
        rcases List.mem_cons.1 hp with rfl | hp
        · simp only; omega
        · have := hso.1 p.1 (List.mem_map.2 ⟨p, hp, rfl⟩)
          omega) hne
      unfold State.left
      simp only
      omega
  · rename_i ht
    exact absurd ht hne

/-- Nothing is queued once no timer is set. -/
theorem State.Inv.rest {s : State} (h : s.Inv d) (ht : s.timers = []) : s.strings = [] ∧ s.typed = s.asked := by
  have h1 := h.token
  rw [ht] at h1
  have hs : s.strings = [] := by
    by_cases hs : s.strings = []
    · exact hs
    · rw [if_neg hs] at h1; cases h1
  have h2 := h.order
  rw [hs] at h2
  exact ⟨hs, by simpa using h2⟩

/-- Some ticks, without key events. -/
def State.ticks (S : Search) (d ms : Nat) (s : State) : Nat → Option State
  | 0 => some s
  | n + 1 => (s.advance S d ms).bind fun s => s.ticks S d ms n

theorem ticks_timers {s s' : State} {n : Nat} (hms : 0 < ms) (h : s.Inv d) (hn : s.left d ms ≤ n) (hr : s.ticks S d ms n = some s') :
    s'.timers = [] ∧ s'.Inv d := by
  induction n generalizing s with
  | zero =>
    simp only [State.ticks, Option.some.injEq] at hr
    subst hr
    refine ⟨?_, h⟩
    cases ht : s.timers with
    | nil => rfl
    | cons p l => simp only [State.left, ht, List.map_cons, List.sum_cons] at hn; generalize (p.1 - s.clock) / ms = w at hn; omega
  | succ n ih =>
    simp only [State.ticks, Option.bind_eq_some_iff] at hr
    obtain ⟨s1, h1, h2⟩ := hr
    refine ih (h.advance h1) ?_ h2
    by_cases hne : s.timers = []
    · have : s1.left d ms = 0 := by
        have hs := (h.rest hne).1
        unfold State.advance at h1
        rw [hne] at h1
        cases h1
        simp [State.left, hne, hs]
      omega
    · have := advance_left hms h hne h1
      omega

theorem letter_asked {s s' : State} {i : Nat} (hne : ∀ l ∈ s.strings, l ≠ []) (h : s.letter S d i = some s') : s'.asked = s.asked := by
  cases hs : s.strings with
  | nil => rw [letter_nil hs] at h; cases h; rfl
  | cons l rest =>
    cases l with
    | nil => exact absurd rfl (hne [] (by rw [hs]; simp))
    | cons k ks => exact (letter_some hs h).2.2.2.2.2.1

theorem ticks_asked {s s' : State} {n : Nat} (h : s.Inv d) (hr : s.ticks S d ms n = some s') : s'.asked = s.asked := by
  induction n generalizing s with
  | zero => cases hr; rfl
  | succ n ih =>
    simp only [State.ticks, Option.bind_eq_some_iff] at hr
    obtain ⟨s1, h1, h2⟩ := hr
    rw [ih (h.advance h1) h2]
    unfold State.advance at h1
    split at h1
    · rename_i t x rest ht
      split at h1
      · cases x with
        | up ko => cases h1; rfl
        | done i => cases h1; rfl
        | next i => exact letter_asked (s := { s with clock := s.clock + ms, timers := rest }) h.ne h1
      · cases h1; rfl
    · cases h1; rfl

theorem run_ticks {m : Queued} (hq : m.queue = []) (n : Nat) :
    m.run S d ms layout mode (List.replicate n .tick) = (m.state.ticks S d ms n).map fun s => ⟨s, [], m.delay - n⟩ := by
  induction n generalizing m with
  | zero =>
    obtain ⟨s, q, dl⟩ := m
    simp only at hq
    subst hq
    rfl
  | succ n ih =>
    simp only [List.replicate_succ, Queued.run, Queued.step, Queued.tick, Queued.taken, State.ticks]
    rw [if_neg (by rw [hq]; simp)]
    simp only [Option.bind_some]
    cases ha : m.state.advance S d ms with
    | none => rfl
    | some s =>
      simp only [Option.map_some, Option.bind_some]
      rw [ih (m := ⟨s, m.queue, m.delay - 1⟩) hq]
      simp only [Nat.sub_sub, Nat.add_comm 1 n]

theorem run_append {m : Queued} (xs ys : List Board.Call) :
    m.run S d ms layout mode (xs ++ ys) = (m.run S d ms layout mode xs).bind fun m => m.run S d ms layout mode ys := by
  induction xs generalizing m with
  | nil => rfl
  | cons c cs ih =>
    simp only [List.cons_append, Queued.run]
    cases m.step S d ms layout mode c with
    | none => rfl
    | some m => exact ih

/-- One letter at a time, the letters always find room if fifteen things are held at most. -/
theorem letter_ok {s : State} {i : Nat} (ht : s.timers.length ≤ 29) (hh : s.board.held.length < 16) : ∃ s', s.letter S d i = some s' := by
  unfold State.letter
  split
  · rename_i k ks rest hs
    have ok : ∀ (s : State) (x : Timer), s.timers.length < 32 → s.board.held.length < 16 →
        ∃ s', s.after S d x = some s' ∧ s'.timers.length = s.timers.length + 1 ∧ s'.board = s.board := by
      intro s x h1 h2
      obtain ⟨s', h3⟩ : ∃ s', s.after S d x = some s' := ⟨_, if_pos h1⟩
      refine ⟨s', h3, ?_, by rw [(after_some h3).1]⟩
      have := (after_perm h3).length_eq
      simpa using this
    obtain ⟨s1, a1, b1, c1⟩ := ok { s with strings := if ks = [] then rest else ks :: rest } (.up k) (by show s.timers.length < 32; omega) hh
    have b1 : s1.timers.length = s.timers.length + 1 := b1
    have c1 : s1.board = s.board := c1
    rw [a1]
    obtain ⟨s2, a2, b2, c2⟩ := ok s1 (if ks = [] then .done i else .next i) (by omega) (by rw [c1]; exact hh)
    simp only [Option.bind_some]
    rw [a2]
    simp only [Option.bind_some]
    have down : ∀ s3 : State, s3.board = s.board → ∃ s', s3.down k = some s' := by
      intro s3 h3
      exact ⟨_, if_pos (by rw [h3]; exact hh)⟩
    split
    · obtain ⟨s3, a3, _, c3⟩ := ok s2 (.next i) (by omega) (by rw [c2, c1]; exact hh)
      rw [a3]
      exact down s3 (by rw [c3, c2, c1])
    · exact down s2 (by rw [c2, c1])
  · exact ⟨s, rfl⟩

theorem countP_split (l : List (Nat × Timer)) (h : ∀ p ∈ l, p.2.letter = none) :
    l.length = l.countP (fun p => p.2.isDone) + l.countP (fun p => p.2.isNext) := by
  induction l with
  | nil => rfl
  | cons p l ih =>
    have h1 := ih fun q hq => h q (List.mem_cons_of_mem _ hq)
    have h2 := h p List.mem_cons_self
    rw [List.length_cons, List.countP_cons, List.countP_cons, h1]
    cases hx : p.2 with
    | up ko => rw [hx] at h2; cases h2
    | next i => simp [Timer.isDone, Timer.isNext]; omega
    | done i => simp [Timer.isDone, Timer.isNext]; omega

/-- At most four timers are set. -/
theorem State.Seq.few {s : State} (h : s.Inv d) (hq : s.Seq d) : s.timers.length ≤ 4 := by
  have ht : s.timers.countP (fun p => p.2.isNext) ≤ 1 := by rw [h.token]; split <;> omega
  rcases hq with hu | ⟨k, pre, t, tail, h1, _, _, h3, h4, h5⟩
  · have := countP_split s.timers fun p hp => (hu.1 p hp).2
    have := hu.2
    omega
  · have := countP_split tail fun p hp => (h4 p hp).2
    rw [h1, List.countP_append, List.countP_cons] at ht
    rw [h1, List.length_append, List.length_cons]
    omega

/-- There is room for the next letter. -/
def State.Room (s : State) : Prop := s.board.held.length ≤ 15 + s.letters.length

theorem State.Seq.advance_ok {s : State} (hd : 0 < d) (h : s.Inv d) (hq : s.Seq d) (hb : s.board.InvL s.letters) (hr : s.Room) :
    ∃ s', s.advance S d ms = some s' ∧ s'.Room := by
  have hfew := hq.few h
  have hs : ∃ s', s.advance S d ms = some s' := by
    unfold State.advance
    split
    · rename_i t x rest ht
      split
      · rename_i hdue
        cases x with
        | up ko => exact ⟨_, rfl⟩
        | done i => exact ⟨_, rfl⟩
        | next i =>
          refine letter_ok ?_ ?_
          · show rest.length ≤ 29
            rw [ht, List.length_cons] at hfew
            omega
          · show s.board.held.length < 16
            have hu : s.Up := by
              rcases hq with hu | ⟨k, pre, t', tail, h1, _, h2, _⟩
              · exact hu
              · rw [ht] at h1
                cases pre with
                | nil => cases h1
                | cons p pre =>
                  simp only [List.cons_append, List.cons.injEq] at h1
                  have := (h2 p List.mem_cons_self).2
                  rw [← h1.1] at this
                  cases this
            unfold State.Room at hr
            rw [hu.letters, List.length_nil] at hr
            omega
      · exact ⟨_, rfl⟩
    · exact ⟨_, rfl⟩
  obtain ⟨s', hs'⟩ := hs
  refine ⟨s', hs', ?_⟩
  unfold State.Room at hr ⊢
  have hb' := hs'
  rcases hq.advance hd h hs' with ⟨h1, h2, _, h4⟩ | ⟨k, h1, h2, _⟩ | ⟨k, h1, h2, _, h4⟩ | ⟨k, h1, h2, _⟩
  · rw [h1.letters] at hr
    rw [h2.letters, h4]
    exact hr
  · rw [h1.letters, List.length_nil] at hr
    rw [h2.letters]
    have : s'.board.held.length ≤ s.board.held.length + 1 := by
      unfold State.advance at hs'
      split at hs'
      · split at hs'
        · rename_i t x rest ht _
          cases x with
          | up ko => cases hs'; exact Nat.le_succ_of_le List.length_erase_le
          | done i => cases hs'; exact Nat.le_succ _
          | next i =>
            cases hst : s.strings with
            | nil =>
              have := letter_nil (S := S) (d := d) (i := i) (s := { s with clock := s.clock + ms, timers := rest }) hst
              simp only [State.fire] at hs'
              rw [this] at hs'
              cases hs'
              exact Nat.le_succ _
            | cons l rs =>
              cases l with
              | nil => exact absurd rfl (h.ne [] (by rw [hst]; simp))
              | cons k ks =>
                have := (letter_some (s := { s with clock := s.clock + ms, timers := rest }) hst hs').1
                rw [this]
                simp
        · cases hs'; exact Nat.le_succ _
      · cases hs'; exact Nat.le_succ _
    simp only [List.length_cons, List.length_nil]
    omega
  · rw [h1.letters] at hr
    rw [h2.letters, h4]
    exact hr
  · have hmem : Slot.virt k ∈ s.board.held := by
      have := hb.balanced k
      rw [h1.letters] at this
      have : 0 < s.board.held.count (Slot.virt k) := by rw [this, List.count_cons_self]; omega
      exact List.count_pos_iff.1 this
    rw [h2.letters, List.length_nil]
    rw [h1.letters] at hr
    have hlen : s'.board.held.length + 1 = s.board.held.length := by
      obtain ⟨pre, t, tail, e1, _, e2, _⟩ := h1
      unfold State.advance at hs'
      rw [e1] at hs'
      cases pre with
      | nil =>
        simp only [List.nil_append] at hs'
        split at hs'
        · cases hs'
          show (s.board.held.erase (Slot.virt k)).length + 1 = _
          rw [List.length_erase_of_mem hmem]
          have := List.length_pos_of_mem hmem
          omega
        · cases hs'
          have := h2.letters
          simp [State.letters, Timer.letter] at this
      | cons p pre =>
        obtain ⟨tp, x⟩ := p
        have hx := e2 (tp, x) List.mem_cons_self
        simp only [List.cons_append] at hs'
        rw [if_pos (by have := hx.1; omega)] at hs'
        cases x with
        | up ko => simp [Timer.isDone] at hx
        | next i => simp [Timer.isDone] at hx
        | done i =>
          cases hs'
          have := h2.letters
          simp [State.letters, Timer.letter] at this
    simp only [List.length_cons, List.length_nil] at hr
    omega

/-- The ticks go on for ever, if there is room. -/
theorem ticks_ok {s : State} (n : Nat) (hd : 0 < d) (h : s.Inv d) (hq : s.Seq d) (hb : s.board.InvL s.letters) (hr : s.Room) :
    ∃ s', s.ticks S d ms n = some s' := by
  induction n generalizing s with
  | zero => exact ⟨s, rfl⟩
  | succ n ih =>
    obtain ⟨s1, h1, h2⟩ := hq.advance_ok (S := S) (ms := ms) hd h hb hr
    have hq1 : s1.Seq d := by
      rcases hq.advance hd h h1 with ⟨_, h2, _⟩ | ⟨k, _, h2, _⟩ | ⟨k, _, h2, _⟩ | ⟨k, _, h2, _⟩
      · exact .inl h2
      · exact .inr ⟨k, h2⟩
      · exact .inr ⟨k, h2⟩
      · exact .inl h2
    obtain ⟨s2, h3⟩ := ih (h.advance h1) hq1 (advance_board h hb h1) h2
    exact ⟨s2, by simp only [State.ticks, h1, Option.bind_some]; exact h3⟩

/-! ## Call by call -/

/-- What a call does: it may take an event, and a tick advances the clock. -/
theorem step_cases {m m' : Queued} {c : Board.Call} (h : m.step S d ms layout mode c = some m') :
    ∃ s1, (s1 = m.state ∨ ∃ e, m.takes c = some e ∧ m.state.input S d layout mode e = some s1) ∧
      (m'.state = s1 ∨ s1.advance S d ms = some m'.state) := by
  have take : ∀ e q m1, m.takes c = some e → Queued.take S d layout mode m.state (e :: q) = some m1 →
      ∃ e, m.takes c = some e ∧ m.state.input S d layout mode e = some m1.state := by
    intro e q m1 ht hm
    simp only [Queued.take, Option.map_eq_some_iff] at hm
    obtain ⟨s', hs', rfl⟩ := hm
    exact ⟨e, ht, hs'⟩
  cases c with
  | input e =>
    simp only [Queued.step, Queued.input] at h
    split at h
    · cases h; exact ⟨_, .inl rfl, .inl rfl⟩
    · rename_i hl
      split at h
      · rename_i hd
        obtain ⟨e', q', hcons⟩ : ∃ e' q', m.queue ++ [e] = e' :: q' := by cases m.queue <;> exact ⟨_, _, rfl⟩
        rw [hcons] at h
        exact ⟨_, .inr (take e' q' m' (by simp only [Queued.takes, if_neg hl, if_pos hd, hcons]; rfl) h), .inl rfl⟩
      · cases h; exact ⟨_, .inl rfl, .inl rfl⟩
  | tick =>
    simp only [Queued.step, Queued.tick, Option.bind_eq_some_iff, Option.map_eq_some_iff] at h
    obtain ⟨m2, h3, s3, h4, rfl⟩ := h
    refine ⟨m2.state, ?_, .inr h4⟩
    unfold Queued.taken at h3
    split at h3
    · rename_i hc
      cases hq : m.queue with
      | nil => exact absurd hq hc.2
      | cons e q =>
        rw [hq] at h3
        exact .inr (take e q m2 (by simp only [Queued.takes, if_pos hc.1, hq]; rfl) h3)
    · cases h3; exact .inl rfl
  | report => cases h; exact ⟨_, .inl rfl, .inl rfl⟩

theorem always_append {P : State → InputEvent → Bool} {m m' : Queued} {xs ys : List Board.Call} (h : m.Always S d ms layout mode P (xs ++ ys))
    (hr : m.run S d ms layout mode xs = some m') : m.Always S d ms layout mode P xs ∧ m'.Always S d ms layout mode P ys := by
  induction xs generalizing m with
  | nil => cases hr; exact ⟨trivial, h⟩
  | cons c cs ih =>
    simp only [Queued.run, Option.bind_eq_some_iff] at hr
    obtain ⟨m1, h1, h2⟩ := hr
    have h3 := ih (h.2 m1 h1) h2
    refine ⟨⟨h.1, fun m2 hm2 => ?_⟩, h3.2⟩
    rw [h1] at hm2
    cases hm2
    exact h3.1

/-- `Always`, computed. -/
def Queued.alwaysB (S : Search) (d ms : Nat) (layout : List Pos) (mode : Mode) (P : State → InputEvent → Bool) (m : Queued) : List Board.Call → Bool
  | [] => true
  | c :: cs => (match m.takes c with | some e => P m.state e | none => true) &&
    (match m.step S d ms layout mode c with | some m' => m'.alwaysB S d ms layout mode P cs | none => true)

theorem always_of_alwaysB {P : State → InputEvent → Bool} {m : Queued} {calls : List Board.Call}
    (h : m.alwaysB S d ms layout mode P calls = true) : m.Always S d ms layout mode P calls := by
  induction calls generalizing m with
  | nil => trivial
  | cons c cs ih =>
    simp only [Queued.alwaysB, Bool.and_eq_true] at h
    refine ⟨fun e he => ?_, fun m' hm' => ih ?_⟩
    · have := h.1
      rw [he] at this
      exact this
    · have := h.2
      rw [hm'] at this
      exact this

/-- A timer that is not due stays. -/
theorem advance_mem {s s' : State} {p : Nat × Timer} (h : s.Inv d) (ha : s.advance S d ms = some s') (hp : p ∈ s.timers) (hnd : s.clock + ms < p.1) :
    p ∈ s'.timers := by
  unfold State.advance at ha
  split at ha
  · rename_i t x rest ht
    split at ha
    · rename_i hdue
      have hr : p ∈ rest := by
        rw [ht] at hp
        rcases List.mem_cons.1 hp with rfl | hp
        · simp only at hnd; omega
        · exact hp
      cases x with
      | up ko => cases ha; exact hr
      | done i => cases ha; exact hr
      | next i =>
        cases hst : s.strings with
        | nil =>
          have := letter_nil (S := S) (d := d) (i := i) (s := { s with clock := s.clock + ms, timers := rest }) hst
          simp only [State.fire] at ha
          rw [this] at ha
          cases ha
          exact hr
        | cons l rs =>
          cases l with
          | nil => exact absurd rfl (h.ne [] (by rw [hst]; simp))
          | cons k ks =>
            have := (letter_some (s := { s with clock := s.clock + ms, timers := rest }) hst ha).2.2.2.2.2.2.2
            refine this.mem_iff.2 (List.mem_append_right _ (List.mem_cons_of_mem _ (List.mem_cons_of_mem _ hr)))
    · cases ha; exact hp
  · cases ha; exact hp

/-- An event types at most one letter, when none is down. -/
theorem State.Seq.input_letters {s s' : State} {e : InputEvent} (hne : NoEmpty layout) (hd : 0 < d) (h : s.Inv d) (hq : s.Seq d)
    (ho : s.overlaps layout e = false) (hi : s.input S d layout mode e = some s') :
    (s'.letters = s.letters ∧ s'.typed = s.typed) ∨
    ∃ k, s.letters = [] ∧ s'.letters = [k] ∧ s'.typed = s.typed ++ [k] ∧ (s'.clock + d, .up k) ∈ s'.timers := by
  cases e with
  | press i =>
    simp only [State.input, State.press] at hi
    split at hi
    · rename_i kos ha
      split at hi
      · obtain ⟨hh, p, hp, hpk⟩ := asks_some ha
        have hk := hne p (List.mem_of_getElem? hp) _ _ hpk
        rcases request_cases hi with ⟨hs, hi⟩ | ⟨_, _, rfl⟩ | ⟨_, rfl⟩
        · have hs : s.strings = [] := hs
          have hl : s.letters = [] := by
            simp only [State.overlaps, ha, hs, Option.isSome_some, List.isEmpty_nil, Bool.true_and, Bool.not_eq_false', List.isEmpty_iff] at ho
            exact ho
          have hu := hq.up hl
          have ht := h.token
          rw [if_pos hs] at ht
          cases kos with
          | nil => exact absurd rfl hk
          | cons k ks =>
            have hdn : s'.Down d k := by
              refine State.Up.letter (ks := ks) (rest := []) ?_ hd ?_ ?_ ?_ hi
              · rfl
              · exact h.sorted
              · exact hu
              · exact ht
            obtain ⟨_, _, _, e4, e5, _, _, e8⟩ := letter_some (k := k) (ks := ks) (rest := []) rfl hi
            refine .inr ⟨k, hl, hdn.letters, e5, ?_⟩
            rw [e4]
            refine e8.mem_iff.2 (List.mem_append_right _ (List.mem_cons_of_mem _ List.mem_cons_self))
        · exact .inl ⟨rfl, rfl⟩
        · exact .inl ⟨rfl, rfl⟩
      · cases hi
    · simp only [Option.map_eq_some_iff] at hi
      obtain ⟨b, _, rfl⟩ := hi
      exact .inl ⟨rfl, rfl⟩
  | release i =>
    simp only [State.input, Option.some.injEq] at hi
    subst hi
    exact .inl ⟨rfl, rfl⟩
  | vpress ko => cases hi
  | vrelease ko => cases hi

/-- A call changes the letter that is down only by typing one when none is, or by releasing it. -/
theorem State.Seq.step {m m' : Queued} {c : Board.Call} (hne : NoEmpty layout) (hms : ms < d) (h : m.state.Inv d) (hq : m.state.Seq d)
    (ho : ∀ e, m.takes c = some e → m.state.overlaps layout e = false) (hs : m.step S d ms layout mode c = some m') :
    (m'.state.letters = m.state.letters ∧ m'.state.typed = m.state.typed) ∨
    (∃ k, m.state.letters = [] ∧ m'.state.letters = [k] ∧ m'.state.typed = m.state.typed ++ [k]) ∨
    (∃ k, m.state.letters = [k] ∧ m'.state.letters = [] ∧ m'.state.typed = m.state.typed) := by
  have hd : 0 < d := by omega
  obtain ⟨s1, h1, h2⟩ := step_cases hs
  have key : (s1.Inv d ∧ s1.Seq d) ∧ ((s1.letters = m.state.letters ∧ s1.typed = m.state.typed) ∨
      ∃ k, m.state.letters = [] ∧ s1.letters = [k] ∧ s1.typed = m.state.typed ++ [k] ∧ (s1.clock + d, .up k) ∈ s1.timers) := by
    rcases h1 with rfl | ⟨e, he, hi⟩
    · exact ⟨⟨h, hq⟩, .inl ⟨rfl, rfl⟩⟩
    · exact ⟨⟨h.input hne hi, hq.input hne hd h (ho e he) hi⟩, hq.input_letters hne hd h (ho e he) hi⟩
  obtain ⟨⟨hinv, hseq⟩, hc⟩ := key
  rcases h2 with h2 | h2
  · rw [h2]
    rcases hc with hc | ⟨k, h3, h4, h5, _⟩
    · exact .inl hc
    · exact .inr (.inl ⟨k, h3, h4, h5⟩)
  · rcases hc with ⟨h3, h4⟩ | ⟨k, h3, h4, h5, h6⟩
    · rw [← h3, ← h4]
      rcases hseq.advance hd hinv h2 with ⟨a, b, c, _⟩ | ⟨k, a, b, c⟩ | ⟨k, a, b, c, _⟩ | ⟨k, a, b, c⟩
      · exact .inl ⟨by rw [a.letters, b.letters], c⟩
      · exact .inr (.inl ⟨k, a.letters, b.letters, c⟩)
      · exact .inl ⟨by rw [a.letters, b.letters], c⟩
      · exact .inr (.inr ⟨k, a.letters, b.letters, c⟩)
    · refine .inr (.inl ⟨k, h3, ?_⟩)
      have hstay := advance_mem hinv h2 h6 (by simp only; omega)
      rcases hseq.advance hd hinv h2 with ⟨a, b, c, _⟩ | ⟨k', a, b, c⟩ | ⟨k', a, b, c, _⟩ | ⟨k', a, b, c⟩
      · rw [a.letters] at h4; cases h4
      · rw [a.letters] at h4; cases h4
      · rw [a.letters] at h4
        cases h4
        exact ⟨b.letters, by rw [c, h5]⟩
      · have := (b.1 _ hstay).2
        cases this

/-! ## A string typed alone -/

/-- What is shown of a string, `t` ticks after its key was pressed, if a letter is shown for `D` ticks and
nothing for one tick after it. -/
def shown (D : Nat) (kos : List KeyOutput) (t : Nat) : List KeyOutput :=
  if t % (D + 1) < D then (kos[t / (D + 1)]?).toList else []

theorem ticks_add {s : State} (a b : Nat) : s.ticks S d ms (a + b) = (s.ticks S d ms a).bind fun s => s.ticks S d ms b := by
  induction a generalizing s with
  | zero => simp [State.ticks]
  | succ a ih =>
    rw [show a + 1 + b = a + b + 1 by omega]
    simp only [State.ticks]
    cases s.advance S d ms with
    | none => rfl
    | some s => exact ih

theorem ticks_hold {s : State} {t : Nat} {x : Timer} {tail : List (Nat × Timer)} (ht : s.timers = (t, x) :: tail) (n : Nat) (hn : s.clock + n * ms < t) :
    s.ticks S d ms n = some { s with clock := s.clock + n * ms } := by
  induction n generalizing s with
  | zero => simp [State.ticks]
  | succ n ih =>
    have e : (n + 1) * ms = ms + n * ms := by rw [Nat.add_mul]; omega
    rw [e] at hn ⊢
    have h1 : s.advance S d ms = some { s with clock := s.clock + ms } := by
      unfold State.advance
      rw [ht]
      simp only
      rw [if_neg (by omega)]
    simp only [State.ticks, h1, Option.bind_some]
    rw [ih (s := { s with clock := s.clock + ms }) ht (by show s.clock + ms + n * ms < t; omega)]
    simp [Nat.add_assoc]

theorem ticks_idle {s : State} (ht : s.timers = []) (n : Nat) : s.ticks S d ms n = some { s with clock := s.clock + n * ms } := by
  induction n generalizing s with
  | zero => simp [State.ticks]
  | succ n ih =>
    have h1 : s.advance S d ms = some { s with clock := s.clock + ms } := by
      unfold State.advance
      rw [ht]
    simp only [State.ticks, h1, Option.bind_some]
    rw [ih (s := { s with clock := s.clock + ms }) ht]
    simp only [Nat.add_mul, Nat.one_mul, Option.some.injEq, State.mk.injEq, true_and, and_true]
    omega

theorem shown_first {D : Nat} {k : KeyOutput} {ks : List KeyOutput} {t : Nat} (h : t < D) : shown D (k :: ks) t = [k] := by
  unfold shown
  rw [Nat.mod_eq_of_lt (by omega), if_pos h, Nat.div_eq_of_lt (by omega)]
  rfl

theorem shown_gap {D : Nat} {ks : List KeyOutput} : shown D ks D = [] := by
  unfold shown
  rw [Nat.mod_eq_of_lt (by omega), if_neg (by omega)]

theorem shown_next {D : Nat} {k : KeyOutput} {ks : List KeyOutput} {t : Nat} : shown D (k :: ks) (D + 1 + t) = shown D ks t := by
  unfold shown
  rw [Nat.add_mod_left, Nat.add_comm (D + 1) t, Nat.add_div_right _ (by omega)]
  rfl

theorem shown_nil {D t : Nat} : shown D [] t = [] := by
  unfold shown
  split <;> rfl

/-- After `D` ticks the letter is released. -/
theorem ticks_release {D : Nat} (hD1 : d ≤ D * ms) (hD2 : ∀ t, t < D → t * ms < d) (hd : 0 < d) {h0 : List Slot} {k : KeyOutput} {s : State} {x : Timer}
    (hfresh : Slot.virt k ∉ h0) (hh : s.board.held = h0 ++ [.virt k]) (ht : s.timers = [(s.clock + d, .up k), (s.clock + d, x)]) :
    s.ticks S d ms D = some { s with clock := s.clock + D * ms, timers := [(s.clock + d, x)], board := { s.board with held := h0 } } := by
  cases D with
  | zero => simp at hD1; omega
  | succ n =>
    have := hD2 n (by omega)
    rw [ticks_add, ticks_hold ht n (by omega)]
    rw [Nat.add_mul, Nat.one_mul] at hD1 ⊢
    simp only [Option.bind_some, State.ticks]
    have hx : State.advance S d ms { s with clock := s.clock + n * ms } =
        some { s with clock := s.clock + (n * ms + ms), timers := [(s.clock + d, x)], board := { s.board with held := h0 } } := by
      unfold State.advance
      simp only [ht]
      rw [if_pos (by omega)]
      simp only [State.fire, hh, Nat.add_assoc]
      rw [List.erase_append_right _ hfresh]
      simp
    rw [hx]
    rfl

/-- Typed alone, the letters come one after the other, at regular intervals. -/
theorem ticks_alone {D : Nat} (hD1 : d ≤ D * ms) (hD2 : ∀ t, t < D → t * ms < d) (hd : 0 < d) {h0 : List Slot} (hlen : h0.length < 16)
    {i : Nat} (ks : List KeyOutput) {k : KeyOutput} {s : State} (hfresh : ∀ x ∈ k :: ks, Slot.virt x ∉ h0)
    (hh : s.board.held = h0 ++ [.virt k]) (hs : s.strings = if ks = [] then [] else [ks])
    (ht : s.timers = [(s.clock + d, .up k), (s.clock + d, if ks = [] then .done i else .next i)]) (t : Nat) :
    ∃ s', s.ticks S d ms t = some s' ∧ s'.board = { s.board with held := h0 ++ (shown D (k :: ks) t).map Slot.virt } := by
  induction ks generalizing k s t with
  | nil =>
    by_cases h1 : t < D
    · have := hD2 t h1
      refine ⟨_, ticks_hold ht t (by omega), ?_⟩
      rw [shown_first h1]
      show s.board = _
      rw [show h0 ++ [k].map Slot.virt = s.board.held from hh.symm]
    · obtain ⟨u, rfl⟩ : ∃ u, t = D + u := ⟨t - D, by omega⟩
      rw [ticks_add, ticks_release hD1 hD2 hd (hfresh k (by simp)) hh ht]
      simp only [Option.bind_some]
      cases u with
      | zero => exact ⟨_, rfl, by simp only [Nat.add_zero, shown_gap, List.map_nil, List.append_nil]⟩
      | succ u =>
        have hx : State.advance S d ms { s with clock := s.clock + D * ms, timers := [(s.clock + d, Timer.done i)], board := { s.board with held := h0 } } =
            some { s with clock := s.clock + D * ms + ms, timers := [], board := { s.board with held := h0 } } := by
          unfold State.advance
          simp only
          rw [if_pos (by omega)]
          rfl
        simp only [if_true, State.ticks]
        rw [hx]
        simp only [Option.bind_some]
        rw [ticks_idle rfl]
        refine ⟨_, rfl, ?_⟩
        rw [show D + (u + 1) = D + 1 + u by omega, shown_next, shown_nil]
        simp
  | cons k' ks ih =>
    simp only [reduceCtorEq, if_false] at hs ht
    by_cases h1 : t < D
    · have := hD2 t h1
      refine ⟨_, ticks_hold ht t (by omega), ?_⟩
      rw [shown_first h1]
      show s.board = _
      rw [show h0 ++ [k].map Slot.virt = s.board.held from hh.symm]
    · obtain ⟨u, rfl⟩ : ∃ u, t = D + u := ⟨t - D, by omega⟩
      rw [ticks_add, ticks_release hD1 hD2 hd (hfresh k (by simp)) hh ht]
      simp only [Option.bind_some]
      cases u with
      | zero => exact ⟨_, rfl, by simp only [Nat.add_zero, shown_gap, List.map_nil, List.append_nil]⟩
      | succ u =>
        obtain ⟨s1, hs1⟩ : ∃ s1 : State, s1 = { s with clock := s.clock + D * ms + ms, timers := [], board := { s.board with held := h0 } } := ⟨_, rfl⟩
        have hx : State.advance S d ms { s with clock := s.clock + D * ms, timers := [(s.clock + d, Timer.next i)], board := { s.board with held := h0 } } =
            s1.letter S d i := by
          rw [hs1]
          unfold State.advance
          simp only
          rw [if_pos (by omega)]
          rfl
        simp only [State.ticks]
        rw [hx]
        obtain ⟨s2, h2⟩ := letter_ok (S := S) (d := d) (s := s1) (i := i) (by rw [hs1]; simp) (by rw [hs1]; exact hlen)
        have hst : s1.strings = (k' :: ks) :: [] := by rw [hs1]; exact hs
        obtain ⟨e1, _, e3, e4, _, _, _, _⟩ := letter_some hst h2
        obtain ⟨tail, f1, f2, f3, _⟩ := letter_seq hst hd (by rw [hs1]; simp) (by rw [hs1]; simp) h2
        rw [h2]
        simp only [Option.bind_some]
        rw [show D + (u + 1) = D + 1 + u by omega, shown_next]
        have hb1 : s1.board = { s.board with held := h0 } := by rw [hs1]
        obtain ⟨s', g1, g2⟩ := ih (k := k') (s := s2) (fun x hx => hfresh x (List.mem_cons_of_mem _ hx)) (by rw [e1, hb1]) e3 (by
          rw [f1, hs1, e4]
          simp only [List.nil_append]
          by_cases hk : ks = []
          · rw [f3 hk rfl, if_pos hk, hs1]
          · rw [f2 hk, if_neg hk, hs1]) u
        refine ⟨s', g1, ?_⟩
        rw [g2, e1, hb1]

end Verif.Macro
