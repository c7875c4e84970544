import Verif.Firmware

/-!
# C53, C54: debouncing
-/

namespace Verif.Firmware

/-- The debounced state of a key after some raw scans, the newest first: it becomes the raw state when six
scans in a row agree. -/
def stable : List Bool → Bool
  | [] => false
  | r :: h => if (r :: h).take 6 = List.replicate 6 r then r else stable h

/-- The number of scans, the newest first, that agree with `b`. -/
def runOf (b : Bool) : List Bool → Nat
  | [] => 0
  | r :: h => if r = b then runOf b h + 1 else 0

theorem take_run (b : Bool) (n : Nat) (h : List Bool) : h.take n = List.replicate n b ↔ n ≤ runOf b h := by
  induction n generalizing h with
  | zero => simp
  | succ n ih =>
    cases h with
    | nil => simp [runOf, List.replicate_succ]
    | cons r h =>
      simp only [List.take_succ_cons, List.replicate_succ, List.cons.injEq, ih, runOf]
      split
      · rename_i hr; simp [hr]
      · rename_i hr; simp [hr]

/-- The variables of a key after the scans `h`, the newest first. -/
structure Inv (h : List Bool) (k : Key) : Prop where
  debounced : k.debounced = stable h
  previous : k.previous = h.headD false
  counter : k.previous ≠ k.debounced → k.counter + 1 = runOf k.previous h ∧ k.counter < 5

theorem Inv.new : Inv [] Key.new := ⟨rfl, rfl, fun h => absurd rfl h⟩

theorem Inv.scan {h : List Bool} {k : Key} (hk : Inv h k) (r : Bool) :
    Inv (r :: h) (k.scan r).1 ∧ (k.scan r).2 = if stable (r :: h) ≠ stable h then some r else none := by
  obtain ⟨hd, hp, hc⟩ := hk
  have hs : stable (r :: h) = if 6 ≤ runOf r h + 1 then r else stable h := by
    rw [stable]
    have := take_run r 6 (r :: h)
    simp only [runOf, if_true] at this
    simp only [this]
  unfold Key.scan
  by_cases h1 : r = k.debounced
  · rw [if_pos h1]
    have hst : stable (r :: h) = stable h := by
      rw [hs]; split
      · rw [h1, hd]
      · rfl
    refine ⟨⟨by rw [hst]; exact hd, rfl, fun hne => absurd h1 hne⟩, by simp [hst]⟩
  · rw [if_neg h1]
    simp only
    by_cases h2 : r = k.previous
    · -- the same raw state as before
      have hif : (if r ≠ k.previous then 0 else k.counter + 1) = k.counter + 1 := if_neg (fun h => h h2)
      simp only [hif]
      have hne : k.previous ≠ k.debounced := by rw [← h2]; exact h1
      obtain ⟨c1, c2⟩ := hc hne
      by_cases h3 : k.counter + 1 ≥ 5
      · rw [if_pos h3]
        have hst : stable (r :: h) = r := by rw [hs, if_pos (by rw [h2, ← c1]; omega)]
        refine ⟨⟨hst.symm, rfl, fun hh => absurd rfl hh⟩, ?_⟩
        rw [hst, if_pos (by rw [← hd]; exact h1)]
      · rw [if_neg h3]
        have hst : stable (r :: h) = stable h := by rw [hs, if_neg (by rw [h2, ← c1]; omega)]
        refine ⟨⟨by rw [hst]; exact hd, rfl, fun _ => ⟨?_, by show k.counter + 1 < 5; omega⟩⟩, by simp [hst]⟩
        simp only [runOf, if_true]
        rw [h2, ← c1]
    · have hif : (if r ≠ k.previous then 0 else k.counter + 1) = 0 := if_pos h2
      simp only [hif]
      rw [if_neg (by decide)]
      have hrun : runOf r h = 0 := by
        cases h with
        | nil => rfl
        | cons x h =>
          simp only [runOf]
          rw [if_neg]
          intro hx
          exact h2 (by rw [hp]; exact hx.symm)
      have hst : stable (r :: h) = stable h := by rw [hs, hrun, if_neg (by decide)]
      refine ⟨⟨by rw [hst]; exact hd, rfl, fun _ => ⟨?_, by show 0 < 5; decide⟩⟩, by simp [hst]⟩
      simp [runOf, hrun]

/-- One key, scanned again and again (the oldest scan first): the variables and the events. -/
def Key.scans (k : Key) : List Bool → Key × List Bool
  | [] => (k, [])
  | r :: rs => (((k.scan r).1.scans rs).1, (k.scan r).2.toList ++ ((k.scan r).1.scans rs).2)

theorem Inv.scans {h : List Bool} {k : Key} (hk : Inv h k) (rs : List Bool) : Inv (rs.reverse ++ h) (k.scans rs).1 := by
  induction rs generalizing h k with
  | nil => exact hk
  | cons r rs ih =>
    have := ih (hk.scan r).1
    simpa [Key.scans] using this

/-- C53: after any raw scans `rs`, the debounced state is the raw state of the last six scans that agreed;
and the next scan `r` makes an event exactly when it completes six scans in a row that agree with each other
and not with the debounced state. -/
theorem C53_debounce (rs : List Bool) (r : Bool) :
    (Key.new.scans rs).1.debounced = stable rs.reverse ∧
    ((Key.new.scans rs).1.scan r).2 =
      if (r :: rs.reverse).take 6 = List.replicate 6 r ∧ r ≠ stable rs.reverse then some r else none := by
  have h := Inv.new.scans rs
  rw [List.append_nil] at h
  refine ⟨h.debounced, ?_⟩
  rw [(h.scan r).2]
  have hs : stable (r :: rs.reverse) = if (r :: rs.reverse).take 6 = List.replicate 6 r then r else stable rs.reverse := rfl
  rw [hs]
  by_cases h6 : (r :: rs.reverse).take 6 = List.replicate 6 r
  · rw [if_pos h6]
    by_cases hr : r = stable rs.reverse
    · rw [if_neg (by simpa using hr), if_neg (fun hc => hc.2 hr)]
    · rw [if_pos hr, if_pos ⟨h6, hr⟩]
  · rw [if_neg h6, if_neg (by simp), if_neg (fun hc => h6 hc.1)]

/-- C53: the counter never exceeds 5, so it does not wrap. -/
theorem C53_counter (rs : List Bool) : (Key.new.scans rs).1.counter ≤ 5 := by
  suffices h : ∀ (h : List Bool) (k : Key), Inv h k → k.counter ≤ 5 → (k.scans rs).1.counter ≤ 5 from h [] Key.new Inv.new (by decide)
  induction rs with
  | nil => intro h k _ hc; exact hc
  | cons r rs ih =>
    intro h k hk hc
    refine ih (r :: h) _ (hk.scan r).1 ?_
    unfold Key.scan
    by_cases h1 : r = k.debounced
    · rw [if_pos h1]; exact Nat.zero_le _
    · rw [if_neg h1]
      simp only
      by_cases h2 : r = k.previous
      · have := (hk.counter (by rw [← h2]; exact h1)).2
        have hif : (if r ≠ k.previous then 0 else k.counter + 1) = k.counter + 1 := if_neg (fun h => h h2)
        simp only [hif]
        split <;> (simp only; omega)
      · have hif : (if r ≠ k.previous then 0 else k.counter + 1) = 0 := if_pos h2
        simp only [hif]
        rw [if_neg (by decide)]; exact Nat.zero_le _

/-- Alternating values, starting with `b`. -/
def Alternates (b : Bool) : List Bool → Prop
  | [] => True
  | x :: xs => x = b ∧ Alternates (!b) xs

/-- C53: the events of a key are a press, a release, a press, ... -/
theorem C53_alternates (rs : List Bool) : Alternates true (Key.new.scans rs).2 := by
  suffices h : ∀ (h : List Bool) (k : Key), Inv h k → Alternates (!k.debounced) (k.scans rs).2 from h [] Key.new Inv.new
  induction rs with
  | nil => intro h k _; trivial
  | cons r rs ih =>
    intro h k hk
    obtain ⟨i1, i2⟩ := hk.scan r
    have hn := ih (r :: h) _ i1
    simp only [Key.scans]
    rw [i2]
    rw [i1.debounced] at hn
    rw [hk.debounced]
    by_cases hs : stable (r :: h) = stable h
    · rw [if_neg (by simpa using hs)]
      rw [hs] at hn
      simpa using hn
    · rw [if_pos hs]
      have hr : stable (r :: h) = r := by
        rw [stable] at hs ⊢
        split at hs
        · rename_i h6; rw [if_pos h6]
        · exact absurd rfl hs
      have hne : r = !stable h := by
        rw [hr] at hs
        cases r <;> cases h' : stable h <;> simp_all
      rw [hr] at hn
      refine ⟨hne, ?_⟩
      rw [← hne]
      simpa using hn

/-! ## All keys -/

theorem scanFrom_spec (i : Nat) (ks : List Key) (raw : List Bool) (hl : raw.length = ks.length) :
    (scanFrom i ks raw).1 = List.zipWith (fun k r => (Key.scan k r).1) ks raw ∧
    (∀ j b, stateChanged j b ∈ (scanFrom i ks raw).2 ↔ ∃ k r, i ≤ j ∧ ks[j - i]? = some k ∧ raw[j - i]? = some r ∧ (Key.scan k r).2 = some b) := by
  induction ks generalizing i raw with
  | nil =>
    cases raw with
    | nil => simp [scanFrom]
    | cons r raw => simp at hl
  | cons k ks ih =>
    cases raw with
    | nil => simp at hl
    | cons r raw =>
      obtain ⟨h1, h2⟩ := ih (i + 1) raw (by simpa using hl)
      simp only [scanFrom, List.zipWith_cons_cons, h1, true_and, List.mem_append, h2]
      intro j b
      constructor
      · rintro (hm | ⟨k', r', hj, hk, hr, hb⟩)
        · rw [Option.mem_toList, Option.map_eq_some_iff] at hm
          obtain ⟨b', hb', he⟩ := hm
          have : j = i ∧ b = b' := by
            unfold stateChanged at he
            cases b <;> cases b' <;> simp_all
          obtain ⟨rfl, rfl⟩ := this
          exact ⟨k, r, Nat.le_refl _, by simp, by simp, hb'⟩
        · refine ⟨k', r', by omega, ?_, ?_, hb⟩
          · rw [show j - i = (j - (i + 1)) + 1 by omega]; simpa using hk
          · rw [show j - i = (j - (i + 1)) + 1 by omega]; simpa using hr
      · rintro ⟨k', r', hj, hk, hr, hb⟩
        by_cases hji : j = i
        · subst hji
          simp only [Nat.sub_self, List.getElem?_cons_zero, Option.some.injEq] at hk hr
          subst hk hr
          left
          rw [hb]; simp
        · right
          rw [show j - i = (j - (i + 1)) + 1 by omega] at hk hr
          exact ⟨k', r', by omega, by simpa using hk, by simpa using hr, hb⟩

theorem scan_mem (ks : List Key) (raw : List Bool) (hl : raw.length = ks.length) (j : Nat) (b : Bool) :
    stateChanged j b ∈ (scan ks raw).2 ↔ ∃ k r, ks[j]? = some k ∧ raw[j]? = some r ∧ (Key.scan k r).2 = some b := by
  have := (scanFrom_spec 0 ks raw hl).2 j b
  simpa [scan] using this

/-- C53: in a scan of all keys, key `j` is pressed (released) exactly when its own debouncing says so, and
no other events are made. -/
theorem C53_scan (ks : List Key) (raw : List Bool) (hl : raw.length = ks.length) :
    (∀ j, InputEvent.press j ∈ (scan ks raw).2 ↔
      ∃ k r, ks[j]? = some k ∧ raw[j]? = some r ∧ (Key.scan k r).2 = some true) ∧
    (∀ j, InputEvent.release j ∈ (scan ks raw).2 ↔
      ∃ k r, ks[j]? = some k ∧ raw[j]? = some r ∧ (Key.scan k r).2 = some false) ∧
    ∀ e ∈ (scan ks raw).2, ∃ j, e = .press j ∨ e = .release j := by
  refine ⟨fun j => scan_mem ks raw hl j true, fun j => scan_mem ks raw hl j false, ?_⟩
  suffices h : ∀ i, ∀ e ∈ (scanFrom i ks raw).2, ∃ j, e = .press j ∨ e = .release j from h 0
  clear hl
  induction ks generalizing raw with
  | nil => intro i e he; cases raw <;> simp [scanFrom] at he
  | cons k ks ih =>
    intro i e he
    cases raw with
    | nil => simp [scanFrom] at he
    | cons r raw =>
      simp only [scanFrom, List.mem_append, Option.mem_toList, Option.map_eq_some_iff] at he
      rcases he with ⟨b, _, rfl⟩ | he
      · cases b
        · exact ⟨i, Or.inr rfl⟩
        · exact ⟨i, Or.inl rfl⟩
      · exact ih raw (i + 1) e he

/-- Two keys: the first has been seen down five times before, the second is up. -/
example : (scan [(Key.new.scans (List.replicate 5 true)).1, Key.new] [true, false]).2 = [.press 0] := by decide

theorem scan_keys (ks : List Key) (raw : List Bool) (hl : raw.length = ks.length) (j : Nat) :
    (scan ks raw).1[j]? = (ks[j]?).bind fun k => (raw[j]?).map fun r => (k.scan r).1 := by
  rw [scan, (scanFrom_spec 0 ks raw hl).1, List.getElem?_zipWith]
  cases ks[j]? <;> cases raw[j]? <;> rfl

/-- C53: so after any scans of a keyboard of `n` keys, each key has been debounced by itself. -/
theorem C53_scans (n : Nat) (raws : List (List Bool)) (hl : ∀ raw ∈ raws, raw.length = n) (j : Nat) (hj : j < n) :
    (scans (List.replicate n Key.new) raws).1[j]? = some (Key.new.scans (raws.map fun raw => raw.getD j false)).1 := by
  suffices h : ∀ (ks : List Key) (k : Key), ks.length = n → ks[j]? = some k →
      (scans ks raws).1[j]? = some (k.scans (raws.map fun raw => raw.getD j false)).1 by
    exact h _ Key.new (by simp) (by simp [hj])
  induction raws with
  | nil => intro ks k _ hk; exact hk
  | cons raw raws ih =>
    intro ks k hn hk
    have hr : raw.length = n := hl raw (by simp)
    have hraw : raw[j]? = some (raw.getD j false) := by
      rw [List.getD_eq_getElem?_getD, List.getElem?_eq_getElem (by omega)]; rfl
    simp only [scans, List.map_cons, Key.scans]
    apply ih (fun r h => hl r (by simp [h]))
    · rw [scan, (scanFrom_spec 0 ks raw (by omega)).1, List.length_zipWith]; omega
    · rw [scan_keys ks raw (by omega), hk, hraw]; rfl

/-! ## ch58x -/

/-- The number of pressed keys. -/
def countPressed (ds : List Bool) : Nat := (ds.filter id).length

theorem scanLoop58_spec (ds raw : List Bool) (n : BitVec 8) (hl : raw.length = ds.length) :
    (scanLoop58 ds raw n).1 = raw ∧
    (scanLoop58 ds raw n).2.1 = n + BitVec.ofNat 8 (countPressed raw) - BitVec.ofNat 8 (countPressed ds) ∧
    (scanLoop58 ds raw n).2.2 = List.zipWith (fun d r => if r = d then none else some r) ds raw := by
  induction ds generalizing raw n with
  | nil =>
    cases raw with
    | nil => simp [scanLoop58, countPressed]
    | cons r raw => simp at hl
  | cons d ds ih =>
    cases raw with
    | nil => simp at hl
    | cons r raw =>
      have hl' : raw.length = ds.length := by simpa using hl
      have hcount : ∀ (b : Bool) (xs : List Bool), BitVec.ofNat 8 (countPressed (b :: xs)) = BitVec.ofNat 8 (countPressed xs) + (if b then 1 else 0) := by
        intro b xs
        cases b with
        | false => simp [countPressed]
        | true => simp [countPressed, BitVec.ofNat_add]
      simp only [scanLoop58]
      by_cases h : r = d
      · obtain ⟨h1, h2, h3⟩ := ih raw n hl'
        rw [if_pos h]
        simp only [h1, h2, h3, hcount, h, List.zipWith_cons_cons, if_true, true_and, and_true]
        generalize BitVec.ofNat 8 (countPressed raw) = x
        generalize BitVec.ofNat 8 (countPressed ds) = y
        cases d <;> simp <;> grind
      · obtain ⟨h1, h2, h3⟩ := ih raw (n + if r then 1 else -1) hl'
        rw [if_neg h]
        simp only [h1, h2, h3, hcount, List.zipWith_cons_cons, if_neg h, true_and, and_true]
        generalize BitVec.ofNat 8 (countPressed raw) = x
        generalize BitVec.ofNat 8 (countPressed ds) = y
        have : d = !r := by cases d <;> cases r <;> simp_all
        subst this
        cases r <;> simp <;> grind

/-- The ch58x keyboard after some scans. -/
def Ch58x.scans (s : Ch58x) : List (List Bool) → Ch58x
  | [] => s
  | raw :: raws => (s.scan raw).1.scans raws

/-- C54: on the ch58x, after any scans of a keyboard of at most 255 keys, the number of pressed keys (which
decides whether the keyboard may sleep) is the number of closed switches in the last scan. -/
theorem C54_count (n : Nat) (hn : n ≤ 255) (raws : List (List Bool)) (hl : ∀ raw ∈ raws, raw.length = n) :
    let s := Ch58x.scans ⟨List.replicate n false, 0⟩ raws
    s.debounced = (raws.getLast?).getD (List.replicate n false) ∧ s.pressed.toNat = countPressed s.debounced := by
  suffices h : ∀ (s : Ch58x), s.debounced.length = n → s.pressed = BitVec.ofNat 8 (countPressed s.debounced) →
      (s.scans raws).debounced = (raws.getLast?).getD s.debounced ∧ (s.scans raws).debounced.length = n ∧
      (s.scans raws).pressed = BitVec.ofNat 8 (countPressed (s.scans raws).debounced) by
    obtain ⟨h1, h2, h3⟩ := h ⟨List.replicate n false, 0⟩ (by simp) (by
      simp only [countPressed]
      rw [show (List.replicate n false).filter id = [] by simp]
      rfl)
    refine ⟨h1, ?_⟩
    rw [h3, BitVec.toNat_ofNat]
    have : countPressed (Ch58x.scans ⟨List.replicate n false, 0⟩ raws).debounced ≤ n := by
      exact Nat.le_trans (List.length_filter_le _ _) (Nat.le_of_eq h2)
    exact Nat.mod_eq_of_lt (by omega)
  induction raws with
  | nil => intro s h1 h2; exact ⟨rfl, h1, h2⟩
  | cons raw raws ih =>
    intro s h1 h2
    have hr := hl raw (by simp)
    obtain ⟨e1, e2, _⟩ := scanLoop58_spec s.debounced raw s.pressed (by omega)
    have hd : (s.scan raw).1.debounced = raw := e1
    have hp : (s.scan raw).1.pressed = BitVec.ofNat 8 (countPressed raw) := by
      show (scanLoop58 s.debounced raw s.pressed).2.1 = _
      rw [e2, h2]
      generalize BitVec.ofNat 8 (countPressed raw) = x
      generalize BitVec.ofNat 8 (countPressed s.debounced) = y
      grind
    obtain ⟨i1, i2, i3⟩ := ih (fun r h => hl r (by simp [h])) (s.scan raw).1 (by rw [hd]; exact hr) (by rw [hp, hd])
    refine ⟨?_, i2, i3⟩
    simp only [Ch58x.scans]
    rw [i1, hd]
    cases raws with
    | nil => rfl
    | cons x xs => rw [List.getLast?_cons_cons]; cases h : (x :: xs).getLast? with
      | none => simp at h
      | some y => rfl

/-- C54: each scan reports exactly the keys that changed. -/
theorem C54_changes (s : Ch58x) (raw : List Bool) (hl : raw.length = s.debounced.length) :
    (s.scan raw).2 = List.zipWith (fun d r => if r = d then none else some r) s.debounced raw :=
  (scanLoop58_spec s.debounced raw s.pressed hl).2.2

/-- A bouncing switch: five scans are not enough, six are. -/
example : (Key.new.scans [true, true, true, true, true, false, true, true, true, true, true, true]).2 = [true] := by decide
example : (Key.new.scans [true, true, true, true, true, false]).2 = [] := by decide

end Verif.Firmware
