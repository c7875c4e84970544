import Verif.Spec.Matrix
import Verif.Props.Firmware

/-!
# C71: a scan reads every switch
-/

namespace Verif.Matrix

/-! ## Loops -/

theorem forUpTo_ind {n : Nat} (hn : n ≤ 255) {f : Nat → St → Res St} (I : Nat → St → Prop)
    (step : ∀ i s, i < n → I i s → ∃ s', f i s = .ok s' ∧ I (i + 1) s') {s : St} (h : I 0 s) :
    ∃ s', forUpTo n f s = .ok s' ∧ I n s' := by
  suffices H : ∀ m, m ≤ n → ∃ s', (List.range m).foldlM (fun s i => f i s) s = .ok s' ∧ I m s' by
    rw [forUpTo, if_pos hn]; exact H n (Nat.le_refl n)
  intro m
  induction m with
  | zero => intro _; exact ⟨s, rfl, h⟩
  | succ m ih =>
    intro hm
    obtain ⟨s', e, hi⟩ := ih (by omega)
    obtain ⟨s'', e', hi'⟩ := step m s' (by omega) hi
    refine ⟨s'', ?_, hi'⟩
    rw [List.range_succ, List.foldlM_append, e]
    simp [e']

/-! ## The tables -/

theorem at'_some {α : Type} {xs : List α} {i : Nat} {x : α} (h : xs[i]? = some x) : at' xs i = .ok x := by
  simp [at', h]

theorem at'_none {α : Type} {xs : List α} {i : Nat} (h : xs.length ≤ i) : at' xs i = .panic .index := by
  simp [at', List.getElem?_eq_none h]

theorem indices_line (b : Board) {r : Nat} (hr : r < b.rows.length) :
    at' b.indices r = .ok (b.cols.mapIdx fun c _ => entry (b.index r c)) := by
  apply at'_some
  simp [Board.indices, hr]

theorem line_entry (b : Board) (r : Nat) {c : Nat} (hc : c < b.cols.length) :
    at' (b.cols.mapIdx fun c _ => entry (b.index r c)) c =
      .ok (entry (b.index r c)) := by
  apply at'_some
  simp [hc]

/-! ## What a scan has seen so far -/

/-- The buffer has been filled for the places in `V` since `t0`. -/
structure Seen (b : Board) (sw : Switches) (t0 : Nat) (buf0 : List Bool) (V : Nat → Nat → Prop) (s : St) : Prop where
  len : s.buf.length = b.keyCount
  time : t0 ≤ s.gpio.now
  seen : ∀ r c k, V r c → r < b.rows.length → c < b.cols.length → b.index r c = some k →
    ∃ t, t0 ≤ t ∧ t < s.gpio.now ∧ s.buf[k]? = some (sw t r c)
  rest : ∀ k, (∀ r c, V r c → r < b.rows.length → c < b.cols.length → b.index r c ≠ some k) → s.buf[k]? = buf0[k]?

theorem Seen.mono {b : Board} {sw : Switches} {t0 : Nat} {buf0 : List Bool} {V V' : Nat → Nat → Prop} {s : St}
    (h : Seen b sw t0 buf0 V s) (hv : ∀ r c, r < b.rows.length → c < b.cols.length → (V r c ↔ V' r c)) :
    Seen b sw t0 buf0 V' s :=
  ⟨h.len, h.time, fun r c k v hr hc => h.seen r c k ((hv r c hr hc).2 v) hr hc,
    fun k hk => h.rest k fun r c v hr hc => hk r c ((hv r c hr hc).1 v) hr hc⟩

theorem Seen.gpio {b : Board} {sw : Switches} {t0 : Nat} {buf0 : List Bool} {V : Nat → Nat → Prop} {s : St}
    (h : Seen b sw t0 buf0 V s) (p : Pin) (l : Bool) : Seen b sw t0 buf0 V (s.put p l) :=
  ⟨h.len, h.time, h.seen, h.rest⟩

/-- Reading one more switch. -/
theorem Seen.read {b : Board} (wf : WellFormed b) {sw : Switches} {t0 : Nat} {buf0 : List Bool} {V V' : Nat → Nat → Prop}
    {s : St} (h : Seen b sw t0 buf0 V s) {r c : Nat} (hr : r < b.rows.length) (hc : c < b.cols.length)
    (hv : ∀ r' c', V' r' c' ↔ V r' c' ∨ (r' = r ∧ c' = c)) {v : Bool} (hval : v = sw s.gpio.now r c) :
    ∃ s', (do
        let line ← at' b.indices r
        let i ← at' line c
        if i ≥ 0 then s.later.write i.toNat v else pure s.later) = Res.ok s' ∧
      Seen b sw t0 buf0 V' s' ∧ s'.gpio.out = s.gpio.out := by
  rw [indices_line b hr, Res.ok_bind, line_entry b r hc, Res.ok_bind]
  cases hi : b.index r c with
  | none =>
    refine ⟨s.later, by simp [entry], ⟨h.len, Nat.le_succ_of_le h.time, ?_, ?_⟩, rfl⟩
    · intro r' c' k hv' hr' hc' hk
      rcases (hv r' c').1 hv' with h' | ⟨rfl, rfl⟩
      · obtain ⟨t, a, b', e⟩ := h.seen r' c' k h' hr' hc' hk
        exact ⟨t, a, Nat.lt_succ_of_lt b', e⟩
      · rw [hi] at hk; exact absurd hk (by simp)
    · intro k hk
      exact h.rest k fun r' c' v' => hk r' c' ((hv r' c').2 (Or.inl v'))
  | some i =>
    have hlt : i < s.buf.length := by rw [h.len]; exact wf.inRange r c i hr hc hi
    have hw : (if entry (some i) ≥ 0 then s.later.write (entry (some i)).toNat v else pure s.later) =
        Res.ok { s.later with buf := s.buf.set i v } := by
      rw [if_pos (by simp [entry])]
      show St.write _ i v = _
      rw [St.write, if_pos (show i < s.later.buf.length from hlt)]
      rfl
    rw [hw]
    refine ⟨_, rfl, ⟨by simp [h.len], Nat.le_succ_of_le h.time, ?_, ?_⟩, rfl⟩
    · intro r' c' k hv' hr' hc' hk
      show ∃ t, t0 ≤ t ∧ t < s.gpio.now + 1 ∧ (s.buf.set i v)[k]? = _
      by_cases hki : k = i
      · subst hki
        obtain ⟨rfl, rfl⟩ := wf.once r' c' r c k hr' hc' hr hc hk hi
        exact ⟨s.gpio.now, h.time, Nat.lt_succ_self _, by rw [List.getElem?_set_self hlt, hval]⟩
      · rcases (hv r' c').1 hv' with h' | ⟨rfl, rfl⟩
        · obtain ⟨t, a, b', e⟩ := h.seen r' c' k h' hr' hc' hk
          exact ⟨t, a, Nat.lt_succ_of_lt b', by rw [List.getElem?_set_ne (Ne.symm hki)]; exact e⟩
        · rw [hi] at hk; exact absurd (Option.some.inj hk).symm hki
    · intro k hk
      show (s.buf.set i v)[k]? = _
      have hki : k ≠ i := by
        intro e; subst e
        exact hk r c ((hv r c).2 (Or.inr ⟨rfl, rfl⟩)) hr hc hi
      rw [List.getElem?_set_ne (Ne.symm hki)]
      exact h.rest k fun r' c' v' => hk r' c' ((hv r' c').2 (Or.inl v'))

/-! ## What an input pin reads -/

theorem any_places (b : Board) (f : Nat × Nat → Bool) :
    b.places.any f = true ↔ ∃ r c, r < b.rows.length ∧ c < b.cols.length ∧ f (r, c) = true := by
  simp only [Board.places, List.any_eq_true, List.mem_flatMap, List.mem_map, List.mem_range]
  constructor
  · rintro ⟨⟨r, c⟩, ⟨r', hr, c', hc, he⟩, hf⟩
    cases he
    exact ⟨r, c, hr, hc, hf⟩
  · rintro ⟨r, c, hr, hc, hf⟩
    exact ⟨(r, c), ⟨r, hr, c, hc, rfl⟩, hf⟩

theorem nodup_idx {α : Type} {xs : List α} (h : xs.Nodup) {i j : Nat} {x : α} (hi : xs[i]? = some x) (hj : xs[j]? = some x) :
    i = j := by
  have hi' : i < xs.length := by
    rcases Nat.lt_or_ge i xs.length with h | h
    · exact h
    · rw [List.getElem?_eq_none h] at hi; cases hi
  have := (List.getElem?_inj hi' h).1 (hi.trans hj.symm)
  exact this

/-- With one row low, a column is low exactly if the switch between them is closed. -/
theorem read_colToRow {b : Board} (wf : WellFormed b) (sw : Switches) (g : Gpio) {r c : Nat} {row col : Pin}
    (hr : b.rows[r]? = some row) (hc : b.cols[c]? = some col) (hlow : g.out row = false)
    (hhigh : ∀ i q, b.rows[i]? = some q → i ≠ r → g.out q = true) :
    b.pulledDown .colToRow sw g col = sw g.now r c := by
  rw [Bool.eq_iff_iff, Board.pulledDown, any_places]
  simp only [Board.anode, Board.cathode, Bool.and_eq_true]
  have hrl : r < b.rows.length := (List.getElem?_eq_some_iff.1 hr).1
  have hcl : c < b.cols.length := (List.getElem?_eq_some_iff.1 hc).1
  constructor
  · rintro ⟨r', c', hr', hc', ⟨hs, hcol⟩, hrow⟩
    have := nodup_idx wf.cols (of_decide_eq_true hcol) hc
    subst this
    rw [List.getElem?_eq_getElem hr'] at hrow
    by_cases e : r' = r
    · subst e; exact hs
    · have := hhigh r' _ (List.getElem?_eq_getElem hr') e
      simp [this] at hrow
  · intro hs
    exact ⟨r, c, hrl, hcl, ⟨hs, decide_eq_true hc⟩, by simp [hr, hlow]⟩

theorem read_rowToCol {b : Board} (wf : WellFormed b) (sw : Switches) (g : Gpio) {r c : Nat} {row col : Pin}
    (hr : b.rows[r]? = some row) (hc : b.cols[c]? = some col) (hlow : g.out col = false)
    (hhigh : ∀ i q, b.cols[i]? = some q → i ≠ c → g.out q = true) :
    b.pulledDown .rowToCol sw g row = sw g.now r c := by
  rw [Bool.eq_iff_iff, Board.pulledDown, any_places]
  simp only [Board.anode, Board.cathode, Bool.and_eq_true]
  have hrl : r < b.rows.length := (List.getElem?_eq_some_iff.1 hr).1
  have hcl : c < b.cols.length := (List.getElem?_eq_some_iff.1 hc).1
  constructor
  · rintro ⟨r', c', hr', hc', ⟨hs, hrow⟩, hcol⟩
    have := nodup_idx wf.rows (of_decide_eq_true hrow) hr
    subst this
    rw [List.getElem?_eq_getElem hc'] at hcol
    by_cases e : c' = c
    · subst e; exact hs
    · have := hhigh c' _ (List.getElem?_eq_getElem hc') e
      simp [this] at hcol
  · intro hs
    exact ⟨r, c, hrl, hcl, ⟨hs, decide_eq_true hr⟩, by simp [hc, hlow]⟩

theorem read_high {b : Board} (wf : WellFormed b) (sw : Switches) (g : Gpio) {r c : Nat} {row col : Pin}
    (hr : b.rows[r]? = some row) (hc : b.cols[c]? = some col) (hhigh : g.out col = true)
    (hlow : ∀ i q, b.cols[i]? = some q → i ≠ c → g.out q = false) :
    b.pulledUp .colToRow sw g row = sw g.now r c := by
  rw [Bool.eq_iff_iff, Board.pulledUp, any_places]
  simp only [Board.anode, Board.cathode, Bool.and_eq_true]
  have hrl : r < b.rows.length := (List.getElem?_eq_some_iff.1 hr).1
  have hcl : c < b.cols.length := (List.getElem?_eq_some_iff.1 hc).1
  constructor
  · rintro ⟨r', c', hr', hc', ⟨hs, hrow⟩, hcol⟩
    have := nodup_idx wf.rows (of_decide_eq_true hrow) hr
    subst this
    rw [List.getElem?_eq_getElem hc'] at hcol
    by_cases e : c' = c
    · subst e; exact hs
    · have := hlow c' _ (List.getElem?_eq_getElem hc') e
      simp [this] at hcol
  · intro hs
    exact ⟨r, c, hrl, hcl, ⟨hs, decide_eq_true hr⟩, by simp [hc, hhigh]⟩

/-! ## Driving one line after another -/

/-- All of the lines are at the level of rest, but perhaps the first, if none has been driven yet. -/
def Rest (lines : List Pin) (level : Bool) (n : Nat) (out : Pin → Bool) : Prop :=
  ∀ (i : Nat) q, lines[i]? = some q → (0 < i ∨ 0 < n) → out q = level

theorem Rest.drive {lines : List Pin} (hl : lines.Nodup) {level : Bool} {n : Nat} {s : St}
    (h : Rest lines level n s.gpio.out) {p : Pin} (hp : lines[n]? = some p) :
    (s.put p !level).gpio.out p = !level ∧ ∀ (i : Nat) q, lines[i]? = some q → i ≠ n → (s.put p !level).gpio.out q = level := by
  refine ⟨by simp [St.put, Gpio.put], fun i q hi hne => ?_⟩
  have hqp : q ≠ p := fun e => hne (nodup_idx hl hi (e ▸ hp))
  simp only [St.put, Gpio.put, hqp, if_false]
  exact h i q hi (by omega)

theorem Rest.drop {lines : List Pin} {level : Bool} {n : Nat} {s : St} {p : Pin} (hp : lines[n]? = some p)
    (h : ∀ (i : Nat) q, lines[i]? = some q → i ≠ n → s.gpio.out q = level) (m : Nat) :
    Rest lines level m (s.put p level).gpio.out := by
  intro i q hi _
  by_cases hqp : q = p
  · simp [St.put, Gpio.put, hqp]
  · simp only [St.put, Gpio.put, hqp, if_false]
    exact h i q hi fun e => hqp (Option.some.inj ((e ▸ hi).symm.trans hp))

/-- A scan by rows. -/
theorem scanRows_spec {b : Board} (wf : WellFormed b) (sw : Switches) {s : St} (hl : s.buf.length = b.keyCount)
    (hrest : Rest b.rows true 0 s.gpio.out) :
    ∃ s', scanRows b sw s = .ok s' ∧ Seen b sw s.gpio.now s.buf (fun _ _ => True) s' ∧ Rest b.rows true 1 s'.gpio.out := by
  obtain ⟨s', e, h, hr⟩ := forUpTo_ind wf.small.1 (f := scanRow b sw)
    (fun n s' => Seen b sw s.gpio.now s.buf (fun r _ => r < n) s' ∧ Rest b.rows true n s'.gpio.out)
    (by
      rintro r s1 hr ⟨h, hrest⟩
      have hrow := List.getElem?_eq_getElem hr
      obtain ⟨hlow, hhigh⟩ := hrest.drive wf.rows hrow
      obtain ⟨s2, e, h2, hout⟩ := forUpTo_ind wf.small.2.1 (f := colForRow b sw r)
        (fun n s' => Seen b sw s.gpio.now s.buf (fun r' c' => r' < r ∨ (r' = r ∧ c' < n)) s' ∧
          s'.gpio.out = (s1.put b.rows[r] false).gpio.out)
        (by
          rintro c s3 hc ⟨h3, ho⟩
          have hcol := List.getElem?_eq_getElem hc
          obtain ⟨s4, e4, h4, ho4⟩ := h3.read wf hr hc (V' := fun r' c' => r' < r ∨ (r' = r ∧ c' < c + 1))
            (fun r' c' => by omega)
            (v := b.pulledDown .colToRow sw s3.gpio b.cols[c])
            (read_colToRow wf sw s3.gpio hrow hcol (by rw [ho]; exact hlow) (fun i q hi hne => by rw [ho]; exact hhigh i q hi hne))
          exact ⟨s4, by rw [colForRow, at'_some hcol, Res.ok_bind]; exact e4, h4, ho4.trans ho⟩)
        (s := s1.put b.rows[r] false)
        ⟨(h.mono (V' := fun r' c' => r' < r ∨ (r' = r ∧ c' < 0)) (fun r' c' _ _ => by omega)).gpio _ _, rfl⟩
      refine ⟨s2.put b.rows[r] true, ?_, (h2.mono fun r' c' _ hc' => by omega).gpio _ _,
        Rest.drop hrow (fun i q hi hne => by rw [hout]; exact hhigh i q hi hne) _⟩
      rw [scanRow, at'_some hrow, Res.ok_bind]
      simp [e])
    (s := s)
    ⟨⟨hl, Nat.le_refl _, fun r c k h => absurd h (Nat.not_lt_zero _), fun k _ => rfl⟩, hrest⟩
  refine ⟨s', e, h.mono fun r c hr _ => by simp [hr], fun i q hi _ => hr i q hi (Or.inr ?_)⟩
  have := (List.getElem?_eq_some_iff.1 hi).1
  omega

/-- A scan by columns. -/
theorem scanCols_spec {b : Board} (wf : WellFormed b) (sw : Switches) {s : St} (hl : s.buf.length = b.keyCount)
    (hrest : Rest b.cols true 0 s.gpio.out) :
    ∃ s', scanCols b sw s = .ok s' ∧ Seen b sw s.gpio.now s.buf (fun _ _ => True) s' ∧ Rest b.cols true 1 s'.gpio.out := by
  obtain ⟨s', e, h, hr⟩ := forUpTo_ind wf.small.2.1 (f := scanCol b sw)
    (fun n s' => Seen b sw s.gpio.now s.buf (fun _ c => c < n) s' ∧ Rest b.cols true n s'.gpio.out)
    (by
      rintro c s1 hc ⟨h, hrest⟩
      have hcol := List.getElem?_eq_getElem hc
      obtain ⟨hlow, hhigh⟩ := hrest.drive wf.cols hcol
      obtain ⟨s2, e, h2, hout⟩ := forUpTo_ind wf.small.1 (f := rowForCol b sw c)
        (fun n s' => Seen b sw s.gpio.now s.buf (fun r' c' => c' < c ∨ (c' = c ∧ r' < n)) s' ∧
          s'.gpio.out = (s1.put b.cols[c] false).gpio.out)
        (by
          rintro r s3 hr ⟨h3, ho⟩
          have hrow := List.getElem?_eq_getElem hr
          obtain ⟨s4, e4, h4, ho4⟩ := h3.read wf hr hc (V' := fun r' c' => c' < c ∨ (c' = c ∧ r' < r + 1))
            (fun r' c' => by omega)
            (v := b.pulledDown .rowToCol sw s3.gpio b.rows[r])
            (read_rowToCol wf sw s3.gpio hrow hcol (by rw [ho]; exact hlow) (fun i q hi hne => by rw [ho]; exact hhigh i q hi hne))
          exact ⟨s4, by rw [rowForCol, at'_some hrow, Res.ok_bind]; exact e4, h4, ho4.trans ho⟩)
        (s := s1.put b.cols[c] false)
        ⟨(h.mono (V' := fun r' c' => c' < c ∨ (c' = c ∧ r' < 0)) (fun r' c' _ _ => by omega)).gpio _ _, rfl⟩
      refine ⟨s2.put b.cols[c] true, ?_, (h2.mono fun r' c' hr' _ => by omega).gpio _ _,
        Rest.drop hcol (fun i q hi hne => by rw [hout]; exact hhigh i q hi hne) _⟩
      rw [scanCol, at'_some hcol, Res.ok_bind]
      simp [e])
    (s := s)
    ⟨⟨hl, Nat.le_refl _, fun r c k h => absurd h (Nat.not_lt_zero _), fun k _ => rfl⟩, hrest⟩
  refine ⟨s', e, h.mono fun r c _ hc => by simp [hc], fun i q hi _ => hr i q hi (Or.inr ?_)⟩
  have := (List.getElem?_eq_some_iff.1 hi).1
  omega

/-- A scan of a ch58x keyboard with as many rows as columns. -/
theorem Ch58.scanRaw_spec {b : Board} (wf : WellFormed b) (square : b.rows.length = b.cols.length) (sw : Switches) {s : St}
    (hl : s.buf.length = b.keyCount) (hrest : Rest b.cols false 0 s.gpio.out) :
    ∃ s', Ch58.scanRaw b sw s = .ok s' ∧ Seen b sw s.gpio.now s.buf (fun _ _ => True) s' ∧ Rest b.cols false 1 s'.gpio.out := by
  obtain ⟨s', e, h, hr⟩ := forUpTo_ind wf.small.1 (f := Ch58.scanCol b sw)
    (fun n s' => Seen b sw s.gpio.now s.buf (fun _ c => c < n) s' ∧ Rest b.cols false n s'.gpio.out)
    (by
      rintro c s1 hc ⟨h, hrest⟩
      rw [square] at hc
      have hcol := List.getElem?_eq_getElem hc
      obtain ⟨hlow, hhigh⟩ := hrest.drive wf.cols hcol
      obtain ⟨s2, e, h2, hout⟩ := forUpTo_ind wf.small.2.1 (f := Ch58.rowForCol b sw c)
        (fun n s' => Seen b sw s.gpio.now s.buf (fun r' c' => c' < c ∨ (c' = c ∧ r' < n)) s' ∧
          s'.gpio.out = (s1.put b.cols[c] true).gpio.out)
        (by
          rintro r s3 hr ⟨h3, ho⟩
          rw [← square] at hr
          have hrow := List.getElem?_eq_getElem hr
          obtain ⟨s4, e4, h4, ho4⟩ := h3.read wf hr hc (V' := fun r' c' => c' < c ∨ (c' = c ∧ r' < r + 1))
            (fun r' c' => by omega)
            (v := b.pulledUp .colToRow sw s3.gpio b.rows[r])
            (read_high wf sw s3.gpio hrow hcol (by rw [ho]; exact hlow) (fun i q hi hne => by rw [ho]; exact hhigh i q hi hne))
          exact ⟨s4, by rw [Ch58.rowForCol, at'_some hrow, Res.ok_bind]; exact e4, h4, ho4.trans ho⟩)
        (s := s1.put b.cols[c] true)
        ⟨(h.mono (V' := fun r' c' => c' < c ∨ (c' = c ∧ r' < 0)) (fun r' c' _ _ => by omega)).gpio _ _, rfl⟩
      refine ⟨s2.put b.cols[c] false, ?_, (h2.mono fun r' c' hr' _ => by omega).gpio _ _,
        Rest.drop hcol (fun i q hi hne => by rw [hout]; exact hhigh i q hi hne) _⟩
      rw [Ch58.scanCol, at'_some hcol, Res.ok_bind]
      simp [e])
    (s := s)
    ⟨⟨hl, Nat.le_refl _, fun r c k h => absurd h (Nat.not_lt_zero _), fun k _ => rfl⟩, hrest⟩
  refine ⟨s', e, h.mono fun r c hr' hc => by simp [square, hc], fun i q hi _ => hr i q hi (Or.inr ?_)⟩
  have := (List.getElem?_eq_some_iff.1 hi).1
  omega

/-! ## From power on -/

/-- The lines which a driver drives. -/
def Board.driven (b : Board) : Diode → List Pin
  | .colToRow => b.rows
  | .rowToCol => b.cols

theorem scanRaw_spec {b : Board} (wf : WellFormed b) (d : Diode) (sw : Switches) {s : St} (hl : s.buf.length = b.keyCount)
    (hrest : Rest (b.driven d) true 0 s.gpio.out) :
    ∃ s', scanRaw d b sw s = .ok s' ∧ Seen b sw s.gpio.now s.buf (fun _ _ => True) s' ∧
      Rest (b.driven d) true 1 s'.gpio.out := by
  cases d
  · exact scanRows_spec wf sw hl hrest
  · exact scanCols_spec wf sw hl hrest

/-- Setting a list of pins. -/
theorem foldl_put (ps : List Pin) (level : Bool) (s : St) :
    (ps.foldl (fun s p => s.put p level) s).buf = s.buf ∧ (ps.foldl (fun s p => s.put p level) s).gpio.now = s.gpio.now ∧
      ∀ q, (ps.foldl (fun s p => s.put p level) s).gpio.out q = if q ∈ ps then level else s.gpio.out q := by
  induction ps generalizing s with
  | nil => simp
  | cons p ps ih =>
    obtain ⟨h1, h2, h3⟩ := ih (s.put p level)
    refine ⟨h1, h2, fun q => ?_⟩
    rw [List.foldl_cons, h3]
    by_cases hq : q ∈ ps
    · simp [hq]
    · by_cases e : q = p <;> simp [hq, e, St.put, Gpio.put]

theorem init_spec (d : Diode) (b : Board) (s : St) :
    (init d b s).buf = s.buf ∧ (init d b s).gpio.now = s.gpio.now ∧ ∀ q ∈ b.driven d, (init d b s).gpio.out q = true := by
  cases d
  · obtain ⟨h1, h2, h3⟩ := foldl_put b.rows true s
    exact ⟨h1, h2, fun q hq => (h3 q).trans (if_pos hq)⟩
  · obtain ⟨h1, h2, h3⟩ := foldl_put b.cols true s
    exact ⟨h1, h2, fun q hq => (h3 q).trans (if_pos hq)⟩

/-- After any number of scans: nothing pressed where there is no switch. -/
structure Resting (b : Board) (d : Diode) (s : St) : Prop where
  len : s.buf.length = b.keyCount
  rest : Rest (b.driven d) true 0 s.gpio.out
  missing : ∀ k, k < b.keyCount → (∀ r c, r < b.rows.length → c < b.cols.length → b.index r c ≠ some k) →
    s.buf[k]? = some false

theorem Resting.scan {b : Board} (wf : WellFormed b) {d : Diode} (sw : Switches) {s : St} (h : Resting b d s) :
    ∃ s', scanRaw d b sw s = .ok s' ∧ Resting b d s' ∧ s.gpio.now ≤ s'.gpio.now ∧
      Reads b sw s.gpio.now s'.gpio.now s'.buf := by
  obtain ⟨s', e, hs, hr⟩ := scanRaw_spec wf d sw h.len h.rest
  have hm : ∀ k, k < b.keyCount → (∀ r c, r < b.rows.length → c < b.cols.length → b.index r c ≠ some k) →
      s'.buf[k]? = some false := fun k hk hn => by
    rw [hs.rest k fun r c _ => hn r c]; exact h.missing k hk hn
  exact ⟨s', e, ⟨hs.len, fun i q hi _ => hr i q hi (Or.inr Nat.zero_lt_one), hm⟩, hs.time,
    ⟨hs.len, fun r c k hr hc hk => hs.seen r c k trivial hr hc hk, hm⟩⟩

theorem scanning_spec {b : Board} (wf : WellFormed b) {d : Diode} (sw : Switches) (rests : List Nat) {s : St}
    (h : Resting b d s) :
    ∃ xs, scanning d b sw s rests = .ok xs ∧ xs.length = rests.length ∧ AllRead b sw s.gpio.now xs := by
  induction rests generalizing s with
  | nil => exact ⟨[], rfl, rfl, trivial⟩
  | cons rest rests ih =>
    have h' : Resting b d { s with gpio := { s.gpio with now := s.gpio.now + rest } } := ⟨h.len, h.rest, h.missing⟩
    obtain ⟨s', e, hs', ht, hr⟩ := h'.scan wf sw
    obtain ⟨xs, e', hlen, hall⟩ := ih hs'
    exact ⟨_, by simp only [scanning]; rw [e, Res.ok_bind, e', Res.ok_bind]; rfl, by simp [hlen],
      show AllRead b sw _ (_ :: _) from ⟨Nat.le_add_right _ _, ht, hr, hall⟩⟩

theorem powerOn_spec {b : Board} (wf : WellFormed b) (d : Diode) (sw : Switches) (out : Pin → Bool)
    (hr : 0 < b.rows.length) (hc : 0 < b.cols.length) :
    ∃ s, powerOn d b sw out = .ok (if sw 0 0 0 then .bootloader else .running s) ∧ Resting b d s ∧ s.gpio.now = 1 := by
  have hrow := List.getElem?_eq_getElem hr
  have hcol := List.getElem?_eq_getElem hc
  obtain ⟨hbuf, hnow, hout⟩ := init_spec d b ⟨⟨out, 0⟩, List.replicate b.keyCount false⟩
  rw [powerOn]
  generalize init d b ⟨⟨out, 0⟩, List.replicate b.keyCount false⟩ = s at *
  have hrest : Rest (b.driven d) true 0 s.gpio.out := fun i q hi _ => hout q (List.mem_of_getElem? hi)
  have hmiss : ∀ k, k < b.keyCount → s.buf[k]? = some false := fun k hk => by simp [hbuf, hk]
  cases d with
  | colToRow =>
    obtain ⟨hlow, hhigh⟩ := hrest.drive wf.rows hrow
    have hv := read_colToRow wf sw (s.put b.rows[0] false).gpio hrow hcol hlow hhigh
    refine ⟨(s.put b.rows[0] false).later, ?_, ⟨by simp [St.later, St.put, hbuf],
      fun i q hi hp => hhigh i q hi (by omega), fun k hk _ => hmiss k hk⟩, ?_⟩
    · rw [isSw11Pressed, at'_some hcol, Res.ok_bind, at'_some hrow, Res.ok_bind]
      simp only [Res.pure_eq, Res.ok_bind, hv]
      have : (s.put b.rows[0] false).gpio.now = 0 := hnow
      rw [this]
    · show s.gpio.now + 1 = 1
      rw [hnow]
  | rowToCol =>
    obtain ⟨hlow, hhigh⟩ := hrest.drive wf.cols hcol
    have hv := read_rowToCol wf sw (s.put b.cols[0] false).gpio hrow hcol hlow hhigh
    refine ⟨(s.put b.cols[0] false).later, ?_, ⟨by simp [St.later, St.put, hbuf],
      fun i q hi hp => hhigh i q hi (by omega), fun k hk _ => hmiss k hk⟩, ?_⟩
    · rw [isSw11Pressed, at'_some hcol, Res.ok_bind, at'_some hrow, Res.ok_bind]
      simp only [Res.pure_eq, Res.ok_bind, hv]
      have : (s.put b.cols[0] false).gpio.now = 0 := hnow
      rw [this]
    · show s.gpio.now + 1 = 1
      rw [hnow]

/-- C71: a ch32x035 keyboard with well-formed tables goes to the boot loader exactly if its first key is held at power on. -/
theorem C71_boot {b : Board} (wf : WellFormed b) (d : Diode) (sw : Switches) (out : Pin → Bool)
    (hr : 0 < b.rows.length) (hc : 0 < b.cols.length) :
    (powerOn d b sw out = .ok .bootloader ↔ sw 0 0 0 = true) ∧
    (sw 0 0 0 = false → ∃ s, powerOn d b sw out = .ok (.running s)) := by
  obtain ⟨s, e, _⟩ := powerOn_spec wf d sw out hr hc
  rw [e]
  cases sw 0 0 0
  · exact ⟨by simp, fun _ => ⟨s, by simp⟩⟩
  · exact ⟨by simp, by simp⟩

/-- C71: and after power on, however often the switches are scanned, each scan ends without an error and finds for
each key whether its switch is closed at some time during the scan. -/
theorem C71_scans {b : Board} (wf : WellFormed b) (d : Diode) (sw : Switches) (out : Pin → Bool)
    (hr : 0 < b.rows.length) (hc : 0 < b.cols.length) {s : St} (h : powerOn d b sw out = .ok (.running s))
    (rests : List Nat) :
    ∃ xs, scanning d b sw s rests = .ok xs ∧ xs.length = rests.length ∧ AllRead b sw s.gpio.now xs := by
  obtain ⟨s', e, hs, _⟩ := powerOn_spec wf d sw out hr hc
  rw [e] at h
  cases hsw : sw 0 0 0
  · rw [hsw] at h
    simp only [Bool.false_eq_true, if_false] at h
    cases h
    exact scanning_spec wf sw rests hs
  · rw [hsw] at h
    cases h

/-- The times at which one switch is read. -/
theorem AllRead.times {b : Board} {sw : Switches} {r c k : Nat} (hr : r < b.rows.length) (hc : c < b.cols.length)
    (hk : b.index r c = some k) : ∀ {t : Nat} {xs : List Scan}, AllRead b sw t xs →
    ∃ ts : List Nat, ts.Pairwise (· < ·) ∧ (∀ x ∈ ts, t ≤ x) ∧
      xs.map (fun x => x.buf.getD k false) = ts.map (fun t => sw t r c)
  | _, [], _ => ⟨[], by simp⟩
  | t, x :: xs, h => by
    obtain ⟨h1, _, h3, h4⟩ := h
    obtain ⟨u, hu1, hu2, hu⟩ := h3.switch r c k hr hc hk
    obtain ⟨ts, hp, hge, hm⟩ := AllRead.times hr hc hk h4
    refine ⟨u :: ts, List.pairwise_cons.2 ⟨fun y hy => Nat.lt_of_lt_of_le hu2 (hge y hy), hp⟩, ?_, ?_⟩
    · intro y hy
      rcases List.mem_cons.1 hy with rfl | hy
      · omega
      · have := hge y hy; omega
    · rw [List.map_cons, List.map_cons, hm, List.getD_eq_getElem?_getD, hu]
      rfl

theorem AllRead.lengths {b : Board} {sw : Switches} : ∀ {t : Nat} {xs : List Scan}, AllRead b sw t xs →
    ∀ raw ∈ xs.map (·.buf), raw.length = b.keyCount
  | _, [], _, _, h => by simp at h
  | _, x :: xs, h, raw, hm => by
    rcases List.mem_cons.1 hm with rfl | hm
    · exact h.2.2.1.length
    · exact AllRead.lengths h.2.2.2 raw hm

/-- C71: so each key is debounced according to its own switch, read once in each scan. -/
theorem C71_debounced {b : Board} (wf : WellFormed b) (d : Diode) (sw : Switches) (out : Pin → Bool)
    {s : St} (h : powerOn d b sw out = .ok (.running s)) (rests : List Nat)
    {r c k : Nat} (hr : r < b.rows.length) (hc : c < b.cols.length) (hk : b.index r c = some k) :
    ∃ xs, scanning d b sw s rests = .ok xs ∧
      ∃ ts : List Nat, ts.length = rests.length ∧ ts.Pairwise (· < ·) ∧
        (Firmware.scans (List.replicate b.keyCount Firmware.Key.new) (xs.map (·.buf))).1[k]? =
          some (Firmware.Key.scans Firmware.Key.new (ts.map fun t => sw t r c)).1 := by
  obtain ⟨xs, e, hlen, hall⟩ := C71_scans wf d sw out (by omega) (by omega) h rests
  obtain ⟨ts, hp, _, hm⟩ := hall.times hr hc hk
  refine ⟨xs, e, ts, ?_, hp, ?_⟩
  · have := congrArg List.length hm
    simp only [List.length_map] at this
    omega
  · rw [Firmware.C53_scans b.keyCount _ hall.lengths k (wf.inRange r c k hr hc hk), List.map_map]
    exact congrArg (fun l => some (Firmware.Key.scans Firmware.Key.new l).1) hm

/-! ## ch58x -/

/-- C71: on the ch58x, a scan with the columns low reads the switches, if there are as many rows as columns. -/
theorem C71_ch58x_partial {b : Board} (wf : WellFormed b) (square : b.rows.length = b.cols.length) (sw : Switches) (s : St)
    (hl : s.buf.length = b.keyCount)
    (hm : ∀ k, k < b.keyCount → (∀ r c, r < b.rows.length → c < b.cols.length → b.index r c ≠ some k) →
      s.buf[k]? = some false) :
    ∃ s', Ch58.scanRaw b sw (Ch58.forScanning b s) = .ok s' ∧ Reads b sw s.gpio.now s'.gpio.now s'.buf ∧
      ∀ q ∈ b.cols, s'.gpio.out q = false := by
  obtain ⟨h1, h2, h3⟩ := foldl_put b.cols false s
  obtain ⟨s', e, hs, hr⟩ := Ch58.scanRaw_spec wf square sw (s := Ch58.forScanning b s)
    (by show (b.cols.foldl _ s).buf.length = _; rw [h1]; exact hl)
    (fun i q hi _ => (h3 q).trans (if_pos (List.mem_of_getElem? hi)))
  have hn : (Ch58.forScanning b s).gpio.now = s.gpio.now := h2
  have hb : (Ch58.forScanning b s).buf = s.buf := h1
  rw [hn, hb] at hs
  refine ⟨s', e, ⟨hs.len, fun r c k hr hc hk => hs.seen r c k trivial hr hc hk, fun k hk hno => ?_⟩, fun q hq => ?_⟩
  · rw [hs.rest k fun r c _ => hno r c]; exact hm k hk hno
  · obtain ⟨i, hi⟩ := List.getElem?_of_mem hq
    exact hr i q hi (Or.inr Nat.zero_lt_one)

theorem write_res (s : St) (i : Nat) (v : Bool) : (∃ s', s.write i v = .ok s') ∨ s.write i v = .panic .index := by
  unfold St.write
  split
  · exact Or.inl ⟨_, rfl⟩
  · exact Or.inr rfl

theorem at'_res {α : Type} (xs : List α) (i : Nat) : (∃ x, at' xs i = .ok x) ∨ at' xs i = .panic .index := by
  unfold at'
  split
  · exact Or.inl ⟨_, rfl⟩
  · exact Or.inr rfl

theorem Ch58.rowForCol_res (b : Board) (sw : Switches) (c r : Nat) (s : St) :
    (∃ s', Ch58.rowForCol b sw c r s = .ok s') ∨ Ch58.rowForCol b sw c r s = .panic .index := by
  unfold Ch58.rowForCol
  rcases at'_res b.rows r with ⟨row, h1⟩ | h1
  · rw [h1, Res.ok_bind]
    rcases at'_res b.indices r with ⟨line, h2⟩ | h2
    · rw [h2, Res.ok_bind]
      rcases at'_res line c with ⟨i, h3⟩ | h3
      · rw [h3, Res.ok_bind]
        split
        · exact write_res _ _ _
        · exact Or.inl ⟨_, rfl⟩
      · rw [h3]; exact Or.inr rfl
    · rw [h2]; exact Or.inr rfl
  · rw [h1]; exact Or.inr rfl

theorem foldlM_res (f : Nat → St → Res St) (hf : ∀ i s, (∃ s', f i s = .ok s') ∨ f i s = .panic .index) (l : List Nat) (s : St) :
    (∃ s', l.foldlM (fun s i => f i s) s = .ok s') ∨ l.foldlM (fun s i => f i s) s = .panic .index := by
  induction l generalizing s with
  | nil => exact Or.inl ⟨s, rfl⟩
  | cons i l ih =>
    rw [List.foldlM_cons]
    rcases hf i s with ⟨s', e⟩ | e
    · rw [e]; exact ih s'
    · rw [e]; exact Or.inr rfl

/-- If one of the turns of a loop fails whatever came before, so does the loop. -/
theorem forUpTo_fails {n : Nat} (hn : n ≤ 255) {f : Nat → St → Res St}
    (hf : ∀ i s, (∃ s', f i s = .ok s') ∨ f i s = .panic .index) {i : Nat} (hi : i < n) (hbad : ∀ s, f i s = .panic .index)
    (s : St) : forUpTo n f s = .panic .index := by
  rw [forUpTo, if_pos hn]
  have : List.range n = List.range i ++ i :: (List.range (n - i - 1)).map (· + (i + 1)) := by
    apply List.ext_getElem
    · simp; omega
    · intro j h1 h2
      simp only [List.getElem_range, List.getElem_append, List.length_range, List.getElem_cons, List.getElem_map]
      split
      · rfl
      · split <;> omega
  rw [this, List.foldlM_append]
  rcases foldlM_res f hf (List.range i) s with ⟨s', e⟩ | e
  · rw [e, Res.ok_bind, List.foldlM_cons, hbad]; rfl
  · rw [e]; rfl

/-- C71 does not hold for other boards of the ch58x: with the bounds of the two loops exchanged, every scan of a board with
more rows than columns or fewer goes beyond the end of one of its tables. -/
theorem C71_ch58x_refuted (b : Board) (sw : Switches) (s : St) (hr : 0 < b.rows.length) (hc : 0 < b.cols.length)
    (hr' : b.rows.length ≤ 255) (hc' : b.cols.length ≤ 255) (h : b.rows.length ≠ b.cols.length) :
    Ch58.scanRaw b sw s = .panic .index := by
  have hcol : ∀ c s, (∃ s', Ch58.scanCol b sw c s = .ok s') ∨ Ch58.scanCol b sw c s = .panic .index := by
    intro c s
    unfold Ch58.scanCol
    rcases at'_res b.cols c with ⟨col, h1⟩ | h1
    · rw [h1, Res.ok_bind]
      have := foldlM_res (Ch58.rowForCol b sw c) (Ch58.rowForCol_res b sw c) (List.range b.cols.length) (s.put col true)
      simp only [forUpTo, if_pos hc']
      rcases this with ⟨s', e⟩ | e
      · rw [e]; exact Or.inl ⟨_, rfl⟩
      · rw [e]; exact Or.inr rfl
    · rw [h1]; exact Or.inr rfl
  rcases Nat.lt_or_gt_of_ne h with hlt | hgt
  · refine forUpTo_fails hr' hcol hr (fun s => ?_) s
    unfold Ch58.scanCol
    rw [at'_some (List.getElem?_eq_getElem hc), Res.ok_bind]
    show (forUpTo _ _ _ >>= _) = _
    rw [forUpTo_fails hc' (Ch58.rowForCol_res b sw 0) hlt fun s => by
      unfold Ch58.rowForCol; rw [at'_none (Nat.le_refl _)]; rfl]
    rfl
  · refine forUpTo_fails hr' hcol hgt (fun s => ?_) s
    unfold Ch58.scanCol
    rw [at'_none (Nat.le_refl _)]
    rfl

/-! ## The boards -/

/-- Whether a board is well formed, as a computation. -/
def Board.check (b : Board) : Bool :=
  decide (b.rows.Nodup ∧ b.cols.Nodup ∧ (∀ p ∈ b.rows, p ∉ b.cols) ∧
    b.rows.length ≤ 255 ∧ b.cols.length ≤ 255 ∧ b.keyCount ≤ 32768) &&
  b.places.all fun (r, c) => (b.index r c).all fun k => decide (k < b.keyCount) &&
    b.places.all fun (r', c') => decide (b.index r' c' = some k → r = r' ∧ c = c')

theorem mem_places {b : Board} {r c : Nat} : (r, c) ∈ b.places ↔ r < b.rows.length ∧ c < b.cols.length := by
  simp [Board.places]

theorem Board.check_wf {b : Board} (h : b.check = true) : WellFormed b := by
  simp only [Board.check, Bool.and_eq_true, decide_eq_true_eq, List.all_eq_true] at h
  obtain ⟨⟨h1, h2, h3, h4, h5, h6⟩, h7⟩ := h
  refine ⟨h1, h2, h3, ?_, ?_, h4, h5, h6⟩
  · intro r c k hr hc hk
    have := h7 (r, c) (mem_places.2 ⟨hr, hc⟩)
    simp only [hk, Option.all_some, Bool.and_eq_true, decide_eq_true_eq] at this
    exact this.1
  · intro r c r' c' k hr hc hr' hc' hk hk'
    have := h7 (r, c) (mem_places.2 ⟨hr, hc⟩)
    simp only [hk, Option.all_some, Bool.and_eq_true, decide_eq_true_eq, List.all_eq_true] at this
    exact this.2 (r', c') (mem_places.2 ⟨hr', hc'⟩) hk'

/-- C71: all the boards in the repository are well formed, and those of the ch58x have as many rows as columns. -/
theorem C71_boards :
    (∀ b ∈ [ch32x36lhs, ch32x36rhs, ch32x48, ch32x48rev2025_2, ch32x75, weact, wabble60, wabble60debug],
      WellFormed b ∧ 0 < b.rows.length ∧ 0 < b.cols.length) ∧
    ∀ b ∈ [wabble60, wabble60debug], b.rows.length = b.cols.length := by
  refine ⟨fun b hb => ?_, fun b hb => ?_⟩
  · simp only [List.mem_cons, List.not_mem_nil, or_false] at hb
    rcases hb with rfl | rfl | rfl | rfl | rfl | rfl | rfl | rfl <;>
      exact ⟨Board.check_wf (by decide +kernel), by decide +kernel, by decide +kernel⟩
  · simp only [List.mem_cons, List.not_mem_nil, or_false] at hb
    rcases hb with rfl | rfl <;> rfl

/-- The keys of a board. -/
def Board.keys (b : Board) : List Nat := b.places.filterMap fun (r, c) => b.index r c

theorem Board.covers_of {b : Board} {keys : List Nat} (h : ∀ k, k ∈ keys ↔ k ∈ b.keys) : Covers b keys := by
  intro k
  rw [h]
  simp only [Board.keys, List.mem_filterMap]
  constructor
  · rintro ⟨⟨r, c⟩, hm, hk⟩
    exact ⟨r, c, (mem_places.1 hm).1, (mem_places.1 hm).2, hk⟩
  · rintro ⟨r, c, hr, hc, hk⟩
    exact ⟨(r, c), mem_places.2 ⟨hr, hc⟩, hk⟩

theorem mem_iff_of {xs ys : List Nat} (h : (xs.all (ys.contains ·) && ys.all (xs.contains ·)) = true) (k : Nat) :
    k ∈ xs ↔ k ∈ ys := by
  simp only [Bool.and_eq_true, List.all_eq_true, List.contains_iff_mem] at h
  exact ⟨h.1 k, h.2 k⟩

/-- C71: on each board in one piece every key of the keymap has a switch; the two halves of the CH32X-36 have the keys of the left
and of the right side; with debugging enabled, the WABBLE-60 loses the eight keys of its second row. -/
theorem C71_every_key :
    Covers ch32x48 (List.range 48) ∧ Covers ch32x48rev2025_2 (List.range 48) ∧ Covers ch32x75 (List.range 75) ∧
    Covers weact (List.range 4) ∧ Covers wabble60 (List.range 60) ∧
    Covers ch32x36lhs ((List.range 30).filter (· % 10 < 5) ++ [30, 31, 32]) ∧
    Covers ch32x36rhs ((List.range 30).filter (· % 10 ≥ 5) ++ [33, 34, 35]) ∧
    Covers wabble60debug ((List.range 60).filter (fun k => (List.range 8).all fun c => decide (wabble60.index 1 c ≠ some k))) := by
  refine ⟨?_, ?_, ?_, ?_, ?_, ?_, ?_, ?_⟩ <;> exact Board.covers_of (mem_iff_of (by decide +kernel))

/-! ## Examples -/

/-- Three closed corners of a rectangle: the fourth key is not taken for pressed. -/
def corners : Switches := fun _ r c => decide ((r, c) ∈ [(1, 1), (1, 2), (2, 1)])

example : (do
    match ← powerOn .rowToCol ch32x36lhs corners (fun _ => false) with
    | .bootloader => pure []
    | .running s => do
      let xs ← scanning .rowToCol ch32x36lhs corners s [1, 0]
      pure (xs.map fun x => (List.range 36).filter fun k => x.buf.getD k false)) =
    Res.ok [[11, 12, 21], [11, 12, 21]] := by decide +kernel

/-- A board of the ch58x with two rows and three columns. -/
def oblong : Board := ⟨[A 0, A 1], [B 0, B 1, B 2], 6, fun r c => some (r * 3 + c)⟩

example : WellFormed oblong := Board.check_wf (by decide +kernel)

example : (fun _ => ()) <$> Ch58.scanRaw oblong corners (Ch58.forScanning oblong ⟨⟨fun _ => true, 0⟩, List.replicate 6 false⟩) =
    Res.panic .index := by decide +kernel

example : (do
    let s ← Ch58.scanRaw wabble60 corners (Ch58.forScanning wabble60 ⟨⟨fun _ => true, 0⟩, List.replicate 60 false⟩)
    pure ((List.range 60).filter fun k => s.buf.getD k false)) = Res.ok [2, 27, 49] := by decide +kernel

end Verif.Matrix
