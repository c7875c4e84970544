import Verif.Lemmas.ChordTime
import Verif.Props.ChordCapacity

/-!
# C37 to C39 end to end: chords, from key presses and ticks to outputs

The firmware, with all of its queues, timers and contexts, does what the board of `Spec/Chords.lean` does,
for every layout of plain keys, layer keys and keys of chords, every history and every length of a tick.
From this follow which chord a group of presses becomes, the tick at which it does, and what the keys do
without a chord.
-/

namespace Verif.Comp.CH

open Board (Cell Entry)
open Chords (Pos Outcome Waiting Rules State)

/-- The keymap data: a layout of plain keys, layer keys and keys of chords, whose layers exist, at most 65535
positions, a timeout and a tick of at least 1 ms; each chord has two different keys, and its first key says
what the chord does; the firmware has room for that many chords. -/
structure ChordsKeymap (K : Keys) (refs : List Ref) (c : Config) (ms : Nat) (layout : List Pos) : Prop where
  layoutEq : chordLayoutOf K refs = some layout
  fits : ∀ p ∈ layout, p.Fits c.layerCount
  leads : ∀ (i : Nat) p, layout[i]? = some p → p.Leads (chordRulesOf c.chorded ms) i
  size : layout.length ≤ 65535
  tick : 1 ≤ ms
  timeout : 1 ≤ c.chorded.timeout
  chordSize : 1 ≤ c.chorded.maxChordSize
  two : ∀ ch ∈ c.chorded.chords, ∃ k ∈ ch, ∃ l ∈ ch, k ≠ l
  count : c.chorded.chords.length ≤ c.maxChords

theorem ChordsKeymap.keymap {K : Keys} {refs : List Ref} {c : Config} {ms : Nat} {layout : List Pos} (h : ChordsKeymap K refs c ms layout) :
    ChordKeymap K refs c.chorded c.layerCount ms layout :=
  ⟨h.layoutEq, h.fits, h.leads, h.size, h.tick, h.timeout, h.chordSize, h.two⟩

/-- The firmware after some calls: it did not panic, and shows the outputs of the held keys of the board in
press order; the same events wait to be taken, and a key is pending when one waits on the board. -/
def Shows (K : Keys) (refs : List Ref) (S : Search) (n : Nat) (c : Config) (ms : Nat) (calls : List Board.Call) (s : State) : Prop :=
  ∃ km, run ⟨system K, refs, S⟩ n ((KM.new (Ctx.fromConfig c)).setMsPerTick ms) (calls.map toOp) = .ok km ∧
    km.pressedKeys ⟨system K, refs, S⟩ = .ok s.board.outputs ∧ km.inq = s.queue ∧ km.pend.isSome = s.waiting.isSome

/-- The board after these calls, which do not overload it. -/
def Reaches (layout : List Pos) (c : Config) (ms : Nat) (calls : List Board.Call) (s : State) : Prop :=
  (∀ e ∈ eventsIn calls, isPhysical e = true) ∧
    (State.new c.layerCount c.chorded.chords.length).run layout (chordRulesOf c.chorded ms) calls = some s

section Timing

variable {K : Keys} {refs : List Ref} {S : Search} {c : Config} {ms n : Nat} {layout : List Pos}

/-- C37, C38, C39: for every history of key events, ticks and reports that does not overload the board, the
firmware does what the board does. -/
theorem C37_refines (hk : ChordsKeymap K refs c ms layout) (calls : List Board.Call) {s : State} (hs : Reaches layout c ms calls s) :
    Shows K refs S (n + 4) c ms calls s := by
  obtain ⟨km, h1, h2⟩ := (CSim.start (K := K) (ms := ms) hk.count).run (S := S) (n := n) hk.keymap calls hs.1 hs.2
  refine ⟨km, h1, h2.core.outputs, h2.core.book.inq, ?_⟩
  have hw := h2.core.wait
  cases hx : s.waiting with
  | none => rw [hx] at hw; rw [hw.1]; rfl
  | some w =>
    rw [hx] at hw
    obtain ⟨_, hp, _⟩ := WaitsFor.key hw
    rw [hp]; rfl

theorem Reaches.down_length (hk : ChordsKeymap K refs c ms layout) {calls : List Board.Call} {s : State} (hs : Reaches layout c ms calls s) :
    s.down.length = c.chorded.chords.length := by
  obtain ⟨km, _, h2⟩ := (CSim.start (K := K) (ms := ms) hk.count).run (S := Search.std) (n := 0) hk.keymap calls hs.1 hs.2
  have hw := h2.core.wait
  cases hx : s.waiting with
  | none => rw [hx] at hw; exact hw.2.1.idle.len
  | some w => rw [hx] at hw; exact (WaitsFor.core hw).idle.len

theorem lift (hk : ChordsKeymap K refs c ms layout) {calls : List Board.Call} {s s' : State} (hs : Reaches layout c ms calls s)
    (more : List Board.Call) (hm : ∀ e ∈ eventsIn more, isPhysical e = true) (hs' : s.run layout (chordRulesOf c.chorded ms) more = some s') :
    Outputs K refs S (n + 4) c ms (calls ++ more) s'.board.outputs := by
  obtain ⟨km, h1, h2, _⟩ := C37_refines (S := S) (n := n) hk (calls ++ more) (s := s')
    ⟨by rw [eventsIn_append]; exact fun e he => (List.mem_append.1 he).elim (hs.1 e) (hm e), by rw [run_append, hs.2]; exact hs'⟩
  exact ⟨km, h1, h2⟩

/-! ## The hypotheses of the theorems -/

/-- Key `i` can wait for a chord: it is a key of chords (`p`) that is not held, no chord with it is down and
some chord with it can be pressed, the required idle time has passed, and there is room. -/
structure CanWait (layout : List Pos) (r : Rules) (s : State) (i : Nat) (p : Pos) : Prop where
  waiting : s.waiting = none
  queue : s.queue = []
  delay : s.delay = 0
  pos : layout[i]? = some p
  member : ∀ e, p ≠ .plain e
  notHeld : s.board.holds i = false
  notDown : s.downWith r i = none
  possible : s.maybe r i ≠ []
  rested : s.rested r i = true
  held : s.board.held.length < 16 ∧ s.board.held.length < r.room
  busy : (s.busy r).length ≤ r.room
  timers : s.timers.length < 32
  clock : s.clock + r.timeout < 2 ^ 32

/-- Chord `id`, whose first key is `f`, and which does `e`, can be pressed: nothing waits, none of its keys is
held or belongs to a chord that is down, and there is room. -/
structure CanPress (layout : List Pos) (r : Rules) (s : State) (id f : Nat) (e : Entry) : Prop where
  waiting : s.waiting = none
  queue : s.queue = []
  delay : s.delay = 0
  exists' : id < r.chords.length
  does : Does layout r id f e
  nodup : (r.keys id).Nodup
  notHeld : ∀ k ∈ r.keys id, s.board.holds k = false
  notBusy : ∀ k ∈ r.keys id, k ∉ s.busy r
  held : s.board.held.length + (r.keys id).length ≤ 16 ∧ s.board.held.length + (r.keys id).length ≤ r.room
  busy : (s.busy r).length + (r.keys id).length ≤ r.room
  size : (r.keys id).length ≤ r.size
  timers : s.timers.length < 32
  clock : s.clock + r.timeout < 2 ^ 32

section Board

variable {r : Rules}

theorem once_length_le (is seen : List Nat) : (Chords.once seen is).length ≤ seen.length + is.length := by
  induction is generalizing seen with
  | nil => simp [Chords.once]
  | cons i is ih =>
    rw [Chords.once]
    refine Nat.le_trans (ih _) ?_
    split <;> simp <;> omega

theorem CanPress.maybe {s : State} {id f i : Nat} {e : Entry} (h : CanPress layout r s id f e) (hi : i ∈ r.keys id) : id ∈ s.maybe r i := by
  refine List.mem_filter.2 ⟨List.mem_range.2 h.exists', ?_⟩
  simp only [Bool.and_eq_true, List.contains_iff_mem, List.all_eq_true, Bool.not_eq_true']
  refine ⟨hi, fun k hk => ?_⟩
  rw [Bool.eq_false_iff]
  intro hb
  exact h.notBusy k hk (by simpa using hb)

theorem CanPress.canWait {s : State} {id f i : Nat} {e : Entry} (h : CanPress layout r s id f e) (hi : i ∈ r.keys id) (hr : s.rested r i = true) :
    ∃ p, CanWait layout r s i p := by
  obtain ⟨p, h1, h2⟩ := h.does.members i hi
  have hpos : 1 ≤ (r.keys id).length := List.length_pos_of_mem hi
  have hheld := h.held
  have hbusy := h.busy
  refine ⟨p, h.waiting, h.queue, h.delay, h1, h2, h.notHeld i hi, ?_, List.ne_nil_of_mem (h.maybe hi), hr, ⟨by omega, by omega⟩, by omega, h.timers,
    h.clock⟩
  unfold State.downWith
  rw [List.find?_eq_none]
  intro x hx hd
  simp only [Bool.and_eq_true, List.contains_iff_mem] at hd
  refine h.notBusy i hi (List.mem_flatMap.2 ⟨x, List.mem_filter.2 ⟨hx, hd.1⟩, by simpa using hd.2⟩)

/-- The key begins to wait. -/
theorem canWait_press {s : State} {i : Nat} {p : Pos} (h : CanWait layout r s i p) :
    ∃ s', s.input layout r (.press i) = some s' ∧ Hanging s' s.board s.down ⟨i, p, s.maybe r i, [i], s.clock + r.timeout, []⟩ 1 s.clock := by
  obtain ⟨b, dn, la, w, q, d, t, i1, i2, ts⟩ := s
  obtain ⟨h1, h2, h3, h4, h5, h6, h7, h8, h9, h10, h11, h12, h13⟩ := h
  simp only at h1 h2 h3 h6 h10 h12 h13
  subst h1 h2 h3
  refine ⟨⟨b, dn, la, some ⟨i, p, State.maybe r ⟨b, dn, la, none, [], 0, t, i1, i2, ts⟩ i, [i], t + r.timeout, []⟩, [], 1, t, 0, i2, ts ++ [t + r.timeout]⟩, ?_,
    rfl, rfl, rfl, rfl, rfl, rfl⟩
  have hd' : State.downWith r ⟨b, dn, la, none, [], 0, t, 0, i2, ts⟩ i = none := h7
  have hm' : State.maybe r ⟨b, dn, la, none, [], 0, t, 0, i2, ts⟩ i = State.maybe r ⟨b, dn, la, none, [], 0, t, i1, i2, ts⟩ i := rfl
  have hr' : State.rested r ⟨b, dn, la, none, [], 0, t, 0, i2, ts⟩ i = true := h9
  have hb' : (Chords.once [] (State.busy r ⟨b, dn, la, none, [], 0, t, 0, i2, ts⟩)).length ≤ r.room :=
    Nat.le_trans (once_length_le _ _) (by rw [List.length_nil, Nat.zero_add]; exact h11)
  simp only [State.input, List.length_nil, show ¬ 0 ≥ 31 by decide, if_false, if_true, List.nil_append, State.takeOldest, State.take, hb', h6, h10,
    Bool.false_eq_true, and_self, h4, Option.bind_some, press_chorded h5, hd']
  rw [if_neg (by rw [hm', hr']; simp [h8]), if_pos ⟨h12, h13⟩, hm']
  rfl

theorem joins_append (as bs : List (List Board.Call × Nat)) : joins (as ++ bs) = joins as ++ joins bs := by
  induction as with
  | nil => rfl
  | cons g gs ih => obtain ⟨x, y⟩ := g; simp [joins, ih]

theorem ticksOf_append (as bs : List (List Board.Call × Nat)) : ticksOf (as ++ bs) = ticksOf as + ticksOf bs := by
  induction as with
  | nil => simp [ticksOf]
  | cons g gs ih => obtain ⟨x, y⟩ := g; simp only [List.cons_append, ticksOf, ih]; omega

theorem joins_events {gs : List (List Board.Call × Nat)} (h : Spread gs) : ∀ e ∈ eventsIn (joins gs), isPhysical e = true := by
  induction gs with
  | nil => simp [joins, eventsIn]
  | cons g gs ih =>
    obtain ⟨as, j⟩ := g
    obtain ⟨ha, _⟩ := h (as, j) List.mem_cons_self
    simp only at ha
    have := ih (fun g hg => h g (List.mem_cons_of_mem _ hg))
    simp only [joins, eventsIn_append, ha, eventsIn, List.nil_append, List.mem_cons, forall_eq_or_imp]
    exact ⟨rfl, this⟩

/-- Key `i` is pressed, and then the keys that `gs` says. -/
def group (i : Nat) (gs : List (List Board.Call × Nat)) : List Board.Call := .input (.press i) :: joins gs

theorem group_events {i : Nat} {gs : List (List Board.Call × Nat)} (h : Spread gs) : ∀ e ∈ eventsIn (group i gs), isPhysical e = true := by
  intro e he
  simp only [group, eventsIn, List.mem_cons] at he
  rcases he with rfl | he
  · rfl
  · exact joins_events h e he

/-- The keys pressed are keys of the chord, and no press decides: the key waits. -/
theorem group_hanging {s : State} {id f i : Nat} {e : Entry} {gs : List (List Board.Call × Nat)} (h : CanPress layout r s id f e)
    (hi : i ∈ r.keys id) (hr : s.rested r i = true) (hgs : Spread gs) (hks : ∀ k ∈ keysOf gs, k ∈ r.keys id) (hn : (i :: keysOf gs).Nodup)
    (ht : ticksOf gs * r.ms < r.timeout)
    (hopen : (∃ k ∈ r.keys id, k ∉ i :: keysOf gs) ∨ ∃ id' ∈ s.maybe r i, id' ≠ id ∧ ∀ k ∈ r.keys id, k ∈ r.keys id') :
    ∃ s' p, layout[i]? = some p ∧ s.run layout r (group i gs) = some s' ∧
      Hanging s' s.board s.down (joined r ⟨i, p, s.maybe r i, [i], s.clock + r.timeout, []⟩ (keysOf gs)) 1 (s.clock + ticksOf gs * r.ms) := by
  obtain ⟨p, hw⟩ := h.canWait hi hr
  obtain ⟨s1, r1, h1⟩ := canWait_press hw
  have hlen : (i :: keysOf gs).length ≤ (r.keys id).length := by
    refine _root_.Verif.Chorded.nodup_length_le hn ?_
    intro k hk
    rcases List.mem_cons.1 hk with rfl | hk
    · exact hi
    · exact hks k hk
  have hl : (keysOf gs).length = gs.length := by simp [keysOf]
  simp only [List.length_cons, hl] at hlen
  have hheld := h.held
  have hsize := h.size
  have hclock := h.clock
  obtain ⟨s2, r2, h2⟩ := hanging_joins (layout := layout) (r := r) hgs h1 (by simp only; omega) (by simp only; omega)
    (by simp only [List.length_nil]; omega) (by simp only [List.length_cons, List.length_nil]; omega)
    (by
      intro as bs j hj
      obtain ⟨f1, f2, f3, f4, f5, f6, f7⟩ := joined_facts (r := r) ⟨i, p, s.maybe r i, [i], s.clock + r.timeout, []⟩ as
      have hj' : ∀ k, k ∈ as ∨ k = j → k ∈ r.keys id := by
        intro k hk
        refine hks k ?_
        rw [hj]
        rcases hk with hk | rfl
        · exact List.mem_append_left _ hk
        · simp
      refine decided_none (id := id) ?_ (hj' j (.inr rfl)) ?_
      · rw [f5, List.mem_filter]
        refine ⟨h.maybe hi, ?_⟩
        rw [List.all_eq_true]
        intro k hk
        simpa using hj' k (.inl hk)
      · rcases hopen with ⟨k, hk, hkn⟩ | ⟨id', hm', hne, hall⟩
        · refine .inl ⟨k, hk, ?_, ?_⟩
          · rintro rfl
            exact hkn (by rw [hj]; simp)
          · rw [f6]
            simp only [List.mem_cons, List.not_mem_nil, or_false]
            rintro (hk' | rfl)
            · exact hkn (by rw [hj]; simp [hk'])
            · exact hkn (by simp)
        · refine .inr ⟨id', ?_, hne, hall j (hj' j (.inr rfl))⟩
          rw [f5, List.mem_filter]
          refine ⟨hm', ?_⟩
          rw [List.all_eq_true]
          intro k hk
          simpa using hall k (hj' k (.inl hk)))
  refine ⟨s2, p, hw.pos, ?_, h2⟩
  simp only [group, State.run, r1, Option.bind_some]
  exact r2

theorem flatMap_filter_set {l : List Nat} (hl : l.Nodup) (f : Nat → List Nat) (p q : Nat → Bool) (id : Nat) (h : ∀ x ∈ l, x ≠ id → q x = p x) :
    ((l.filter q).flatMap f).length ≤ ((l.filter p).flatMap f).length + (f id).length := by
  induction l with
  | nil => simp
  | cons a l ih =>
    rw [List.nodup_cons] at hl
    by_cases ha : a = id
    · subst ha
      have heq : l.filter q = l.filter p := by
        refine List.filter_congr fun x hx => h x (List.mem_cons_of_mem _ hx) ?_
        rintro rfl
        exact hl.1 hx
      simp only [List.filter_cons, heq]
      split <;> split <;> (try simp only [List.flatMap_cons, List.length_append]) <;> omega
    · have ih := ih hl.2 (fun x hx => h x (List.mem_cons_of_mem _ hx))
      simp only [List.filter_cons, h a List.mem_cons_self ha]
      split
      · simp only [List.flatMap_cons, List.length_append]; omega
      · exact ih

/-- The chord is decided: the keys pressed after the first are taken, one per tick. -/
theorem chord_taken {s s1 : State} {id f i : Nat} {e : Entry} {js : List Nat} {w : Waiting} {p : Pos} {t : Nat} (h : CanPress layout r s id f e)
    (hdl : s.down.length = r.chords.length) (hp : (i :: js).Perm (r.keys id)) (hwk : w.key = i) (hwp : w.pos = p) (hpos : layout[i]? = some p)
    {q : List InputEvent} (h1 : Free s1 (decide' r s.board w (.chord id)) (downs s.down (.chord id)) (js.map InputEvent.press ++ q) 0 t) (m : Nat)
    (hq : q = [] ∨ m ≤ js.length) (hc : t + m * r.ms < 2 ^ 32) :
    ∃ s', s1.run layout r (List.replicate m .tick) = some s' ∧
      Free s' (holdAll layout r id s.board (i :: js.take m)) (downs s.down (.chord id)) ((js.drop m).map InputEvent.press ++ q) 0 (t + m * r.ms) := by
  have hb : decide' r s.board w (.chord id) = holdAll layout r id s.board [i] := by
    simp only [decide', holdAll, hwk, hwp, hpos, Option.getD_some]
  have hnd := (hp.nodup_iff.2 h.nodup)
  rw [List.nodup_cons] at hnd
  have hmem : ∀ k, k ∈ i :: js → k ∈ r.keys id := fun k hk => hp.mem_iff.1 hk
  have hlen := hp.length_eq
  simp only [List.length_cons] at hlen
  have hheld := h.held
  have hhl : (decide' r s.board w (.chord id)).held.map Prod.fst = s.board.held.map Prod.fst ++ [i] := by
    rw [hb, holdAll_held]
  have hhn : (decide' r s.board w (.chord id)).held.length = s.board.held.length + 1 := by
    have := congrArg List.length hhl
    simpa using this
  have hdn : downAt (downs s.down (.chord id)) id = true := by
    simp [downAt, downs, List.getElem?_set, hdl, h.exists']
  have hdne : ∀ x, x ≠ id → downAt (downs s.down (.chord id)) x = s.isDown x := by
    intro x hx
    simp [downAt, downs, List.getElem?_set, State.isDown, Ne.symm hx]
  obtain ⟨s2, h2, h3⟩ := free_joins (layout := layout) (r := r) (id := id) h.exists' hdn
    (by
      intro id' k hid' hd' hk hk'
      by_cases hne : id' = id
      · exact hne
      · rw [hdne id' hne] at hd'
        exact absurd (List.mem_flatMap.2 ⟨id', List.mem_filter.2 ⟨List.mem_range.2 hid', hd'⟩, hk'⟩) (h.notBusy k hk))
    (by
      refine Nat.le_trans (once_length_le _ _) ?_
      rw [List.length_nil, Nat.zero_add]
      have := flatMap_filter_set (l := r.ids) List.nodup_range r.keys s.isDown (downAt (downs s.down (.chord id))) id (fun x _ hx => hdne x hx)
      exact Nat.le_trans this h.busy)
    h.does.members m (ks := js) (fun k hk => hmem k (List.mem_cons_of_mem _ hk)) hnd.2
    (by
      intro k hk
      rw [hhl, List.mem_append, List.mem_singleton]
      rintro (hx | rfl)
      · have := h.notHeld k (hmem k (List.mem_cons_of_mem _ hk))
        rw [holds_iff.2 hx] at this
        cases this
      · exact hnd.1 hk)
    (by omega) (by omega) hq h1 hc
  refine ⟨s2, h2, ?_⟩
  rw [hb, ← holdAll_append] at h3
  exact h3

end Board

theorem ChordsKeymap.two_keys (hk : ChordsKeymap K refs c ms layout) {id : Nat} (h : id < (chordRulesOf c.chorded ms).chords.length) :
    ∃ k ∈ (chordRulesOf c.chorded ms).keys id, ∃ l ∈ (chordRulesOf c.chorded ms).keys id, k ≠ l := by
  have hget : c.chorded.chords[id]? = some (c.chorded.chords[id]'h) := List.getElem?_eq_getElem h
  have hkeys : (chordRulesOf c.chorded ms).keys id = c.chorded.chords[id]'h := by simp only [Rules.keys, chordRulesOf, hget, Option.getD_some]
  rw [hkeys]
  exact hk.two _ (List.getElem_mem h)

/-- C37: keys of a chord are pressed, one after the other, but not all of them: until the timeout nothing is
output for them. -/
theorem C37_silent (hk : ChordsKeymap K refs c ms layout) {calls : List Board.Call} {s : State} (hs : Reaches layout c ms calls s)
    {id f i : Nat} {e : Entry} (h : CanPress layout (chordRulesOf c.chorded ms) s id f e) {gs : List (List Board.Call × Nat)}
    (hgs : Spread gs) (hn : (i :: keysOf gs).Nodup) (hks : ∀ k ∈ i :: keysOf gs, k ∈ (chordRulesOf c.chorded ms).keys id)
    (hmiss : ∃ k ∈ (chordRulesOf c.chorded ms).keys id, k ∉ i :: keysOf gs) (hr : s.rested (chordRulesOf c.chorded ms) i = true)
    (ds : List Board.Call) (hds : eventsIn ds = []) (ht : (ticksOf gs + ticksIn ds) * ms < c.chorded.timeout) :
    Outputs K refs S (n + 4) c ms (calls ++ (group i gs ++ ds)) s.board.outputs := by
  rw [Nat.add_mul] at ht
  have hclk := h.clock
  simp only [chordRulesOf] at hclk
  obtain ⟨s1, p, _, r1, h1⟩ := group_hanging h (hks i List.mem_cons_self) hr hgs (fun k hk => hks k (List.mem_cons_of_mem _ hk)) hn
    (by simp only [chordRulesOf]; omega) (.inl hmiss)
  obtain ⟨_, _, f3, _⟩ := joined_facts (r := chordRulesOf c.chorded ms)
    ⟨i, p, s.maybe (chordRulesOf c.chorded ms) i, [i], s.clock + (chordRulesOf c.chorded ms).timeout, []⟩ (keysOf gs)
  obtain ⟨s2, r2, h2⟩ := hanging_ticks (layout := layout) (r := chordRulesOf c.chorded ms) (ticksIn ds) h1
    (by rw [f3]; simp only [chordRulesOf]; omega) (by rw [f3]; simp only [chordRulesOf]; omega)
  have := lift (S := S) (n := n) hk hs (group i gs ++ ds)
    (by rw [eventsIn_append, hds, List.append_nil]; exact group_events hgs)
    (s' := s2) (by rw [run_append, r1]; simp only [Option.bind_some, run_ticks s1 hds]; exact r2)
  rw [h2.board] at this
  exact this

theorem together_state (hk : ChordsKeymap K refs c ms layout) {calls : List Board.Call} {s : State} (hs : Reaches layout c ms calls s)
    {id f i : Nat} {e : Entry} {R : Rules} (hR : R = chordRulesOf c.chorded ms) (h : CanPress layout R s id f e) {gs : List (List Board.Call × Nat)}
    (hgs : Spread gs) (hp : (i :: keysOf gs).Perm (R.keys id)) (hr : s.rested R i = true)
    (honly : ∀ id' ∈ s.maybe R i, (∀ k ∈ R.keys id, k ∈ R.keys id') → id' = id)
    (ht : ticksOf gs * ms < c.chorded.timeout) (ds : List Board.Call) (hds : eventsIn ds = [])
    (hclk : s.clock + (ticksOf gs + ticksIn ds) * ms < 2 ^ 32) :
    ∃ s', s.run layout R (group i gs ++ ds) = some s' ∧
      s'.board = holdAll layout R id s.board (i :: (keysOf gs).take (ticksIn ds - 1)) ∧
      (1 ≤ ticksIn ds → Free s' (holdAll layout R id s.board (i :: (keysOf gs).take (ticksIn ds - 1))) (downs s.down (.chord id))
        (((keysOf gs).drop (ticksIn ds - 1)).map InputEvent.press) 0 (s.clock + (ticksOf gs + ticksIn ds) * ms)) := by
  have hms : R.ms = ms := by rw [hR]; rfl
  have hto : R.timeout = c.chorded.timeout := by rw [hR]; rfl
  have hch : R.chords.length = c.chorded.chords.length := by rw [hR]; rfl
  have hdl := hs.down_length hk
  obtain ⟨k1, hk1, k2, hk2, hk12⟩ := hk.two_keys (id := id) (by rw [← hR]; exact h.exists')
  rw [← hR] at hk1 hk2
  have hclk' := h.clock
  have hnd := hp.nodup_iff.2 h.nodup
  have hmem : ∀ k, k ∈ i :: keysOf gs ↔ k ∈ R.keys id := fun k => hp.mem_iff
  rcases List.eq_nil_or_concat gs with rfl | ⟨gs', ⟨as, j⟩, heq⟩
  · have h1 := (hmem k1).2 hk1
    have h2 := (hmem k2).2 hk2
    simp only [keysOf, List.map_nil, List.mem_cons, List.not_mem_nil, or_false] at h1 h2
    exact absurd (h1.trans h2.symm) hk12
  · rw [List.concat_eq_append] at heq
    subst heq
    have hko : keysOf (gs' ++ [(as, j)]) = keysOf gs' ++ [j] := by simp [keysOf]
    have hto' : ticksOf (gs' ++ [(as, j)]) = ticksOf gs' + ticksIn as := by rw [ticksOf_append]; simp [ticksOf]
    obtain ⟨ha, ha1⟩ := hgs (as, j) (by simp)
    simp only at ha ha1
    have hgs' : Spread gs' := fun g hg => hgs g (List.mem_append_left _ hg)
    rw [hto', Nat.add_mul] at ht
    rw [hto', Nat.add_mul, Nat.add_mul] at hclk
    have hmem' := hmem
    have hp' := hp
    have hnd' := hnd
    rw [hko] at hnd hmem hp
    have hi : i ∈ R.keys id := (hmem i).1 List.mem_cons_self
    have hj : j ∈ R.keys id := (hmem j).1 (by simp)
    have hnd0 : (i :: (keysOf gs' ++ [j])).Nodup := hnd
    rw [← List.cons_append, List.nodup_append] at hnd
    obtain ⟨hnd1, _, hnd2⟩ := hnd
    have hjn : j ∉ i :: keysOf gs' := fun hj => hnd2 j hj j (by simp) rfl
    obtain ⟨s1, p, hpos, r1, h1⟩ := group_hanging h hi hr hgs'
      (fun k hk => (hmem k).1 (by simp only [List.mem_cons, List.mem_append]; exact .inr (.inl hk))) hnd1
      (by rw [hms, hto]; omega) (.inl ⟨j, hj, hjn⟩)
    obtain ⟨f1, f2, f3, f4, f5, f6, f7⟩ := joined_facts (r := R) ⟨i, p, s.maybe R i, [i], s.clock + R.timeout, []⟩ (keysOf gs')
    obtain ⟨W, hW⟩ : ∃ W, W = joined R ⟨i, p, s.maybe R i, [i], s.clock + R.timeout, []⟩ (keysOf gs') := ⟨_, rfl⟩
    rw [← hW] at h1 f1 f2 f3 f4 f5 f6 f7
    obtain ⟨s2, r2, h2⟩ := hanging_ticks (layout := layout) (r := R) (ticksIn as) h1 (by rw [f3]; simp only [hms, hto]; omega) (by rw [f3]; simp only; omega)
    rw [show 1 - ticksIn as = 0 by omega] at h2
    have hlen := hp.length_eq
    simp only [List.length_cons, List.length_append, List.length_nil] at hlen
    have hheld := h.held
    have hsize := h.size
    obtain ⟨s3, r3, h3⟩ := hanging_decides (layout := layout) (r := R) (j := j) (o := .chord id) h2
      (by rw [f4]; simp only [List.nil_append, List.length_map]; omega) (by rw [f7]; simp only [List.length_cons, List.length_nil]; omega)
      (by
        refine decided_chord ?_ ?_ hj ?_ ?_
        · rw [f5]; exact (List.nodup_range.filter _).filter _
        · rw [f5, List.mem_filter]
          refine ⟨h.maybe hi, ?_⟩
          rw [List.all_eq_true]
          intro k hk
          simpa using (hmem k).1 (by simp only [List.mem_cons, List.mem_append]; exact .inr (.inl hk))
        · intro k hk
          have := (hmem k).2 hk
          rw [f6]
          simp only [List.mem_cons, List.mem_append, List.not_mem_nil, or_false] at this ⊢
          rcases this with h | h | h
          · exact .inr (.inr h)
          · exact .inr (.inl h)
          · exact .inl h
        · intro id' hid' hj'
          rw [f5, List.mem_filter, List.all_eq_true] at hid'
          refine honly id' hid'.1 ?_
          intro k hk
          have := (hmem k).2 hk
          simp only [List.mem_cons, List.mem_append, List.not_mem_nil, or_false] at this
          rcases this with h | h | h
          · subst h
            have := (List.mem_filter.1 hid'.1).2
            simp only [Bool.and_eq_true, List.contains_iff_mem] at this
            simpa using this.1
          · simpa using hid'.2 k h
          · subst h; exact hj')
    have hkept : ({ W with seen := W.seen ++ [InputEvent.press j] } : Waiting).kept = (keysOf gs' ++ [j]).map InputEvent.press := by
      refine kept_presses ?_ ?_
      · simp only [f4, List.nil_append, List.map_append, List.map_cons, List.map_nil]
      · simp only [f1]
        rw [List.nodup_cons] at hnd0
        exact hnd0.1
    rw [hkept, hms] at h3
    have hrun : ∀ s', s3.run layout R (List.replicate (ticksIn ds) .tick) = some s' →
        s.run layout R (group i (gs' ++ [(as, j)]) ++ ds) = some s' := by
      intro s' hs'
      rw [show group i (gs' ++ [(as, j)]) = group i gs' ++ (as ++ [.input (.press j)]) by simp [group, joins_append, joins]]
      simp only [run_append, r1, Option.bind_some, run_ticks s1 ha, r2, State.run, r3, run_ticks s3 hds]
      exact hs'
    rw [hko, hto']
    cases hd : ticksIn ds with
    | zero =>
      refine ⟨s3, hrun s3 (by rw [hd]; rfl), ?_, by simp⟩
      rw [h3.board]
      simp only [decide', holdAll, f1, f2, hpos, Option.getD_some, Nat.zero_sub, List.take_zero]
    | succ m =>
      rw [hd, Nat.add_mul, Nat.one_mul] at hclk
      obtain ⟨s4, r4, h4⟩ := free_tick (layout := layout) (r := R) h3 (.inr (by decide)) (by rw [hms]; omega)
      obtain ⟨s5, r5, h5⟩ := chord_taken h (by rw [hch]; exact hdl) hp f1 f2 hpos (q := []) (by rw [List.append_nil]; exact h4) m (.inl rfl) (by rw [hms]; omega)
      rw [List.append_nil] at h5
      refine ⟨s5, hrun s5 (by rw [hd]; simp only [List.replicate_succ, State.run, r4, Option.bind_some]; exact r5), h5.board, fun _ => ?_⟩
      rw [hms] at h5
      rw [show s.clock + (ticksOf gs' + ticksIn as + (m + 1)) * ms = s.clock + ticksOf gs' * ms + ticksIn as * ms + ms + m * ms by
        rw [Nat.add_mul, Nat.add_mul, Nat.add_mul, Nat.one_mul]; omega]
      exact h5

theorem group_outputs {R : Rules} {s : State} {id f i : Nat} {e : Entry} {js : List Nat} (h : CanPress layout R s id f e)
    (hp : (i :: js).Perm (R.keys id)) (m : Nat) :
    (holdAll layout R id s.board (i :: js.take m)).outputs = s.board.outputs ++ if f ∈ i :: js.take m then (e.pick s.board).output.toList else [] := by
  have hnd := hp.nodup_iff.2 h.nodup
  rw [List.nodup_cons] at hnd
  refine holdAll_outputs h.does _ ?_ ?_ _
  · intro k hk
    refine hp.mem_iff.1 ?_
    rcases List.mem_cons.1 hk with rfl | hk
    · simp
    · exact List.mem_cons_of_mem _ (List.mem_of_mem_take hk)
  · rw [List.nodup_cons]
    exact ⟨fun hx => hnd.1 (List.mem_of_mem_take hx), hnd.2.sublist (List.take_sublist _ _)⟩

/-- C38: the keys of a chord are pressed, in any order, one after the other, the last before the timeout after
the first, and no other chord that can be pressed has all of these keys. At the last press the chord is
decided. Its output is there as soon as the chord's first key is taken: at the last press if that key was
pressed first, and otherwise, if it was pressed as the `k`-th after the first, `k + 1` ticks after the last
press. -/
theorem C38_together (hk : ChordsKeymap K refs c ms layout) {calls : List Board.Call} {s : State} (hs : Reaches layout c ms calls s)
    {id f i : Nat} {e : Entry} (h : CanPress layout (chordRulesOf c.chorded ms) s id f e) {gs : List (List Board.Call × Nat)}
    (hgs : Spread gs) (hp : (i :: keysOf gs).Perm ((chordRulesOf c.chorded ms).keys id)) (hr : s.rested (chordRulesOf c.chorded ms) i = true)
    (honly : ∀ id' ∈ s.maybe (chordRulesOf c.chorded ms) i,
      (∀ k ∈ (chordRulesOf c.chorded ms).keys id, k ∈ (chordRulesOf c.chorded ms).keys id') → id' = id)
    (ht : ticksOf gs * ms < c.chorded.timeout) (ds : List Board.Call) (hds : eventsIn ds = [])
    (hclk : s.clock + (ticksOf gs + ticksIn ds) * ms < 2 ^ 32) :
    Outputs K refs S (n + 4) c ms (calls ++ (group i gs ++ ds))
      (s.board.outputs ++ if f ∈ i :: (keysOf gs).take (ticksIn ds - 1) then (e.pick s.board).output.toList else []) := by
  obtain ⟨s', h1, h2, _⟩ := together_state hk hs rfl h hgs hp hr honly ht ds hds hclk
  have := lift (S := S) (n := n) hk hs (group i gs ++ ds) (by rw [eventsIn_append, hds, List.append_nil]; exact group_events hgs) h1
  rw [h2, group_outputs h hp] at this
  exact this

theorem joined_outcome {R : Rules} {s : State} {id f i d : Nat} {e : Entry} {p : Pos} {js : List Nat} (h : CanPress layout R s id f e)
    (hp : (i :: js).Perm (R.keys id)) (hsame : ∀ id' ∈ s.maybe R i, (∀ k, k ∈ R.keys id ↔ k ∈ R.keys id') → id' = id)
    {W : Waiting} (hW : W = joined R ⟨i, p, s.maybe R i, [i], d, []⟩ js) : W.outcome R = .chord id := by
  have hmem : ∀ k, k ∈ i :: js ↔ k ∈ R.keys id := fun k => hp.mem_iff
  have hi : i ∈ R.keys id := (hmem i).1 List.mem_cons_self
  obtain ⟨_, _, _, _, f5, f6, _⟩ := joined_facts (r := R) ⟨i, p, s.maybe R i, [i], d, []⟩ js
  rw [← hW] at f5 f6
  refine outcome_chord ?_ ?_ ?_
  · rw [f5, List.mem_filter]
    refine ⟨h.maybe hi, ?_⟩
    rw [List.all_eq_true]
    intro k hk
    simpa using (hmem k).1 (List.mem_cons_of_mem _ hk)
  · intro k hk
    have := (hmem k).2 hk
    rw [f6]
    simp only [List.mem_cons, List.not_mem_nil, or_false] at this ⊢
    exact this.symm
  · intro id' hid' hall
    rw [f5, List.mem_filter, List.all_eq_true] at hid'
    refine hsame id' hid'.1 fun k => ?_
    rw [← hmem k, List.mem_cons]
    constructor
    · rintro (rfl | hx)
      · have := (List.mem_filter.1 hid'.1).2
        simp only [Bool.and_eq_true, List.contains_iff_mem] at this
        simpa using this.1
      · simpa using hid'.2 k hx
    · intro hx
      have := hall k hx
      rw [f6] at this
      simp only [List.mem_cons, List.not_mem_nil, or_false] at this
      exact this.symm

/-- C38: the keys of a chord are pressed, in any order, the last before the timeout after the first, but another
chord that can be pressed has all of these keys and more. Until the timeout after the first press nothing is
output. At the tick at which the timeout is reached (the last of `ds`) the chord is decided: its output is
there at this tick if its first key was pressed first, and otherwise, if it was pressed as the `k`-th after the
first, `k` ticks later. -/
theorem C38_larger (hk : ChordsKeymap K refs c ms layout) {calls : List Board.Call} {s : State} (hs : Reaches layout c ms calls s)
    {id f i : Nat} {e : Entry} (h : CanPress layout (chordRulesOf c.chorded ms) s id f e) {gs : List (List Board.Call × Nat)}
    (hgs : Spread gs) (hp : (i :: keysOf gs).Perm ((chordRulesOf c.chorded ms).keys id)) (hr : s.rested (chordRulesOf c.chorded ms) i = true)
    (hlarger : ∃ id' ∈ s.maybe (chordRulesOf c.chorded ms) i, id' ≠ id ∧
      ∀ k ∈ (chordRulesOf c.chorded ms).keys id, k ∈ (chordRulesOf c.chorded ms).keys id')
    (hsame : ∀ id' ∈ s.maybe (chordRulesOf c.chorded ms) i,
      (∀ k, k ∈ (chordRulesOf c.chorded ms).keys id ↔ k ∈ (chordRulesOf c.chorded ms).keys id') → id' = id)
    (ht : ticksOf gs * ms < c.chorded.timeout) :
    (∀ ds, eventsIn ds = [] → (ticksOf gs + ticksIn ds) * ms < c.chorded.timeout →
      Outputs K refs S (n + 4) c ms (calls ++ (group i gs ++ ds)) s.board.outputs) ∧
    (∀ ds ds', eventsIn ds = [] → eventsIn ds' = [] → (ticksOf gs + (ticksIn ds - 1)) * ms < c.chorded.timeout →
      c.chorded.timeout ≤ (ticksOf gs + ticksIn ds) * ms → s.clock + (ticksOf gs + ticksIn ds + ticksIn ds') * ms < 2 ^ 32 →
      Outputs K refs S (n + 4) c ms (calls ++ (group i gs ++ (ds ++ ds')))
        (s.board.outputs ++ if f ∈ i :: (keysOf gs).take (ticksIn ds') then (e.pick s.board).output.toList else [])) := by
  have hdl := hs.down_length hk
  obtain ⟨R, hR⟩ : ∃ R, R = chordRulesOf c.chorded ms := ⟨_, rfl⟩
  rw [← hR] at h hp hr hlarger hsame
  have hms : R.ms = ms := by rw [hR]; rfl
  have hto : R.timeout = c.chorded.timeout := by rw [hR]; rfl
  have hch : R.chords.length = c.chorded.chords.length := by rw [hR]; rfl
  have hclk := h.clock
  have hmem : ∀ k, k ∈ i :: keysOf gs ↔ k ∈ R.keys id := fun k => hp.mem_iff
  have hnd := hp.nodup_iff.2 h.nodup
  have hi : i ∈ R.keys id := (hmem i).1 List.mem_cons_self
  obtain ⟨s1, p, hpos, r1, h1⟩ := group_hanging h hi hr hgs (fun k hk => (hmem k).1 (List.mem_cons_of_mem _ hk)) hnd (by rw [hms, hto]; exact ht) (.inr hlarger)
  obtain ⟨f1, f2, f3, f4, f5, f6, f7⟩ := joined_facts (r := R) ⟨i, p, s.maybe R i, [i], s.clock + R.timeout, []⟩ (keysOf gs)
  obtain ⟨W, hW⟩ : ∃ W, W = joined R ⟨i, p, s.maybe R i, [i], s.clock + R.timeout, []⟩ (keysOf gs) := ⟨_, rfl⟩
  rw [← hW] at h1 f1 f2 f3 f4 f5 f6 f7
  rw [hms] at h1
  have hstay : ∀ k, (ticksOf gs + k) * ms < c.chorded.timeout →
      ∃ s', s1.run layout R (List.replicate k .tick) = some s' ∧ Hanging s' s.board s.down W (1 - k) (s.clock + ticksOf gs * ms + k * ms) := by
    intro k hk
    rw [Nat.add_mul] at hk
    have := hanging_ticks (layout := layout) (r := R) k h1 (by rw [f3]; simp only [hms, hto]; omega) (by rw [f3]; simp only; omega)
    rw [hms] at this
    exact this
  refine ⟨fun ds hds hlt => ?_, fun ds ds' hds hds' hlt hle hcl => ?_⟩
  · obtain ⟨s2, r2, h2⟩ := hstay _ hlt
    have := lift (S := S) (n := n) hk hs (group i gs ++ ds)
      (by rw [eventsIn_append, hds, List.append_nil]; exact group_events hgs)
      (s' := s2) (by rw [← hR, run_append, r1]; simp only [Option.bind_some, run_ticks s1 hds]; exact r2)
    rw [h2.board] at this
    exact this
  · cases hd : ticksIn ds with
    | zero => rw [hd, Nat.add_zero] at hle; omega
    | succ m =>
      rw [hd, Nat.add_sub_cancel] at hlt
      obtain ⟨s2, r2, h2⟩ := hstay m hlt
      rw [hd] at hle hcl
      have e1 : (ticksOf gs + (m + 1)) * ms = ticksOf gs * ms + m * ms + ms := by rw [Nat.add_mul, Nat.add_mul, Nat.one_mul]; omega
      have e2 : (ticksOf gs + (m + 1) + ticksIn ds') * ms = ticksOf gs * ms + m * ms + ms + ticksIn ds' * ms := by rw [Nat.add_mul, e1]
      rw [e1] at hle
      rw [e2] at hcl
      have hout : W.outcome R = .chord id := joined_outcome h hp hsame hW
      have hkept : W.kept = (keysOf gs).map InputEvent.press := by
        refine kept_presses (by rw [f4]; rfl) ?_
        rw [f1]
        rw [List.nodup_cons] at hnd
        exact hnd.1
      have hlen := hp.length_eq
      simp only [List.length_cons] at hlen
      have hheld := h.held
      obtain ⟨s3, r3, h3⟩ := hanging_timeout (layout := layout) (r := R) h2 (by rw [f3]; simp only [hms, hto]; omega) (by rw [hms]; omega)
        (by rw [hkept, List.length_map]; omega)
      rw [hout, hkept, show 1 - m - 1 = 0 by omega] at h3
      obtain ⟨s4, r4, h4⟩ := chord_taken h (by rw [hch]; exact hdl) hp f1 f2 hpos (q := []) (by rw [List.append_nil]; exact h3) (ticksIn ds') (.inl rfl) (by rw [hms]; omega)
      have := lift (S := S) (n := n) hk hs (group i gs ++ (ds ++ ds'))
        (by rw [eventsIn_append, eventsIn_append, hds, hds', List.append_nil, List.append_nil]; exact group_events hgs)
        (s' := s4) (by
          rw [← hR, run_append, r1]
          simp only [Option.bind_some, run_append, run_ticks s1 hds, hd]
          rw [List.replicate_succ', run_append, r2]
          simp only [Option.bind_some, State.run, r3, run_ticks s3 hds']
          exact r4)
      rw [h4.board, group_outputs h hp] at this
      exact this

/-- C38: the same, but the key that was pressed first is released before the timeout: with the release the
chord is decided, and the other keys are taken, one per tick. -/
theorem C38_larger_release (hk : ChordsKeymap K refs c ms layout) {calls : List Board.Call} {s : State} (hs : Reaches layout c ms calls s)
    {id f i : Nat} {e : Entry} (h : CanPress layout (chordRulesOf c.chorded ms) s id f e) {gs : List (List Board.Call × Nat)}
    (hgs : Spread gs) (hp : (i :: keysOf gs).Perm ((chordRulesOf c.chorded ms).keys id)) (hr : s.rested (chordRulesOf c.chorded ms) i = true)
    (hlarger : ∃ id' ∈ s.maybe (chordRulesOf c.chorded ms) i, id' ≠ id ∧
      ∀ k ∈ (chordRulesOf c.chorded ms).keys id, k ∈ (chordRulesOf c.chorded ms).keys id')
    (hsame : ∀ id' ∈ s.maybe (chordRulesOf c.chorded ms) i,
      (∀ k, k ∈ (chordRulesOf c.chorded ms).keys id ↔ k ∈ (chordRulesOf c.chorded ms).keys id') → id' = id)
    (h15 : (keysOf gs).length < 16) (as ds : List Board.Call) (has : eventsIn as = []) (ha1 : 1 ≤ ticksIn as)
    (ht : (ticksOf gs + ticksIn as) * ms < c.chorded.timeout) (hds : eventsIn ds = []) (hlen : ticksIn ds ≤ (keysOf gs).length + 1)
    (hcl : s.clock + (ticksOf gs + ticksIn as + ticksIn ds) * ms < 2 ^ 32) :
    Outputs K refs S (n + 4) c ms (calls ++ (group i gs ++ (as ++ .input (.release i) :: ds)))
      (s.board.outputs ++ if f ∈ i :: (keysOf gs).take (ticksIn ds - 1) then (e.pick s.board).output.toList else []) := by
  have hdl := hs.down_length hk
  obtain ⟨R, hR⟩ : ∃ R, R = chordRulesOf c.chorded ms := ⟨_, rfl⟩
  rw [← hR] at h hp hr hlarger hsame
  have hms : R.ms = ms := by rw [hR]; rfl
  have hto : R.timeout = c.chorded.timeout := by rw [hR]; rfl
  have hch : R.chords.length = c.chorded.chords.length := by rw [hR]; rfl
  have hclk := h.clock
  have hmem : ∀ k, k ∈ i :: keysOf gs ↔ k ∈ R.keys id := fun k => hp.mem_iff
  have hnd := hp.nodup_iff.2 h.nodup
  have hi : i ∈ R.keys id := (hmem i).1 List.mem_cons_self
  rw [Nat.add_mul] at ht
  rw [Nat.add_mul, Nat.add_mul] at hcl
  obtain ⟨s1, p, hpos, r1, h1⟩ := group_hanging h hi hr hgs (fun k hk => (hmem k).1 (List.mem_cons_of_mem _ hk)) hnd (by rw [hms, hto]; omega) (.inr hlarger)
  obtain ⟨f1, f2, f3, f4, f5, f6, f7⟩ := joined_facts (r := R) ⟨i, p, s.maybe R i, [i], s.clock + R.timeout, []⟩ (keysOf gs)
  obtain ⟨W, hW⟩ : ∃ W, W = joined R ⟨i, p, s.maybe R i, [i], s.clock + R.timeout, []⟩ (keysOf gs) := ⟨_, rfl⟩
  rw [← hW] at h1 f1 f2 f3 f4 f5 f6 f7
  rw [hms] at h1
  obtain ⟨s2, r2, h2⟩ := hanging_ticks (layout := layout) (r := R) (ticksIn as) h1 (by rw [f3]; simp only [hms, hto]; omega) (by rw [f3]; simp only; omega)
  rw [show 1 - ticksIn as = 0 by omega, hms] at h2
  obtain ⟨s3, r3, h3⟩ := hanging_release (layout := layout) (r := R) h2 (by rw [f4]; simpa using h15)
  rw [f1] at r3
  have hout : W.outcome R = .chord id := joined_outcome h hp hsame hW
  have hkept : ({ W with seen := W.seen ++ [InputEvent.release W.key] } : Waiting).kept = (keysOf gs).map InputEvent.press ++ [.release i] := by
    have hik : ∀ k ∈ keysOf gs, ¬ i = k := by
      rintro k hk rfl
      rw [List.nodup_cons] at hnd
      exact hnd.1 hk
    have h1 : (W.seen ++ [InputEvent.release W.key]).filter (Chords.ofKey W.key) = [.release i] := by
      rw [f1, f4, List.nil_append, List.filter_append, List.filter_eq_nil_iff.2]
      · simp [Chords.ofKey]
      · intro e he
        obtain ⟨k, hk, rfl⟩ := List.mem_map.1 he
        simp [Chords.ofKey, hik k hk]
    have h2 : (W.seen ++ [InputEvent.release W.key]).filter (fun e => !Chords.ofKey W.key e) = (keysOf gs).map InputEvent.press := by
      rw [f1, f4, List.nil_append, List.filter_append, List.filter_eq_self.2]
      · simp [Chords.ofKey]
      · intro e he
        obtain ⟨k, hk, rfl⟩ := List.mem_map.1 he
        simp [Chords.ofKey, hik k hk]
    unfold Waiting.kept
    rw [h1, h2]
    rfl
  rw [hout, hkept] at h3
  have hrun : ∀ s', s3.run layout R (List.replicate (ticksIn ds) .tick) = some s' →
      s.run layout R (group i gs ++ (as ++ .input (.release i) :: ds)) = some s' := by
    intro s' hs'
    simp only [run_append, r1, Option.bind_some, run_ticks s1 has, r2, State.run, r3, run_ticks s3 hds]
    exact hs'
  have hshow : ∀ s', s3.run layout R (List.replicate (ticksIn ds) .tick) = some s' →
      Outputs K refs S (n + 4) c ms (calls ++ (group i gs ++ (as ++ .input (.release i) :: ds))) s'.board.outputs := by
    intro s' hs'
    refine lift (S := S) (n := n) hk hs _ ?_ (by rw [← hR]; exact hrun s' hs')
    intro e he
    simp only [eventsIn_append, eventsIn, has, hds, List.nil_append, List.mem_append, List.mem_cons, List.not_mem_nil, or_false] at he
    rcases he with he | rfl
    · exact group_events hgs e he
    · rfl
  cases hd : ticksIn ds with
  | zero =>
    have := hshow s3 (by rw [hd]; rfl)
    rw [h3.board] at this
    have hb : decide' R s.board W (.chord id) = holdAll layout R id s.board (i :: (keysOf gs).take 0) := by
      simp only [decide', holdAll, f1, f2, hpos, Option.getD_some, List.take_zero]
    rw [hb, group_outputs h hp] at this
    exact this
  | succ m =>
    rw [hd, Nat.add_mul, Nat.one_mul] at hcl
    rw [hd] at hlen
    obtain ⟨s4, r4, h4⟩ := free_tick (layout := layout) (r := R) h3 (.inr (by decide)) (by rw [hms]; omega)
    obtain ⟨s5, r5, h5⟩ := chord_taken h (by rw [hch]; exact hdl) hp f1 f2 hpos h4 m (.inr (by omega)) (by rw [hms]; omega)
    have := hshow s5 (by rw [hd]; simp only [List.replicate_succ, State.run, r4, Option.bind_some]; exact r5)
    rw [h5.board, group_outputs h hp] at this
    exact this

/-! ### Release -/

theorem hold_held' (b : Board.State) (i : Nat) (cl : Cell) : (Chords.hold b i cl).held = b.held ++ [(i, cl)] := by
  cases cl <;> rfl

theorem holdAll_cells {R : Rules} {id f : Nat} {e : Entry} (h : Does layout R id f e) (ks : List Nat) (hk : ∀ k ∈ ks, k ∈ R.keys id) (b : Board.State) :
    ∀ x ∈ (holdAll layout R id b ks).held, x ∈ b.held ∨ x.1 = f ∨ x.2 = .nothing := by
  induction ks generalizing b with
  | nil => exact fun x hx => .inl hx
  | cons k ks ih =>
    intro x hx
    rw [holdAll, h.entry (hk k List.mem_cons_self)] at hx
    rcases ih (fun k hk' => hk k (List.mem_cons_of_mem _ hk')) _ x hx with h1 | h1
    · rw [hold_held', List.mem_append, List.mem_singleton] at h1
      rcases h1 with h1 | rfl
      · exact .inl h1
      · by_cases hf : k = f
        · exact .inr (.inl hf)
        · rw [if_neg hf]; exact .inr (.inr rfl)
    · exact .inr h1

theorem holdAll_prefix {R : Rules} {id : Nat} (ks : List Nat) (b : Board.State) : ∃ xs, (holdAll layout R id b ks).held = b.held ++ xs := by
  induction ks generalizing b with
  | nil => exact ⟨[], by simp [holdAll]⟩
  | cons k ks ih =>
    obtain ⟨xs, hx⟩ := ih (Chords.hold b k ((((layout[k]?).getD (.plain (.cell .nothing))).entry R k (.chord id)).pick b))
    exact ⟨_, by rw [holdAll, hx, hold_held', List.append_assoc]⟩

theorem release_held (b : Board.State) (i : Nat) : (b.input [] (.release i)).held = b.held.filter (fun p => p.1 != i) := by
  simp only [Board.State.input]
  cases hf : b.held.find? (fun p => p.1 == i) with
  | some p => obtain ⟨a, cl⟩ := p; cases cl <;> rfl
  | none =>
    rw [List.find?_eq_none] at hf
    exact (List.filter_eq_self.2 fun x hx => by have := hf x hx; simpa using this).symm

/-- The chord's first key is released: the chord's output is gone. -/
theorem holdAll_release {R : Rules} {s : State} {id f : Nat} {e : Entry} (h : CanPress layout R s id f e) (ks : List Nat)
    (hk : ∀ k ∈ ks, k ∈ R.keys id) (hn : ks.Nodup) : ((holdAll layout R id s.board ks).input [] (.release f)).outputs = s.board.outputs := by
  obtain ⟨xs, hx⟩ := holdAll_prefix (layout := layout) (R := R) (id := id) ks s.board
  have hfst := holdAll_held (layout := layout) (r := R) id ks s.board
  rw [hx, List.map_append] at hfst
  have hxs : xs.map Prod.fst = ks := List.append_cancel_left hfst
  unfold Board.State.outputs
  rw [release_held, hx, List.filter_append, List.filterMap_append]
  have h1 : s.board.held.filter (fun p => p.1 != f) = s.board.held := by
    refine List.filter_eq_self.2 fun x hx => ?_
    have hf := h.notHeld f (List.mem_of_mem_head? h.does.head)
    simp only [bne_iff_ne]
    intro hxf
    rw [holds_iff.2 (List.mem_map.2 ⟨x, hx, hxf⟩)] at hf
    cases hf
  have h2 : (xs.filter (fun p => p.1 != f)).filterMap (fun p => p.2.output) = [] := by
    rw [List.filterMap_eq_nil_iff]
    intro x hx'
    obtain ⟨hx1, hx2⟩ := List.mem_filter.1 hx'
    rcases holdAll_cells h.does ks hk s.board x (by rw [hx]; exact List.mem_append_right _ hx1) with h3 | h3 | h3
    · have hmem : x.1 ∈ ks := by rw [← hxs]; exact List.mem_map_of_mem hx1
      have hf := h.notHeld x.1 (hk _ hmem)
      rw [holds_iff.2 (List.mem_map_of_mem h3)] at hf
      cases hf
    · simp [h3] at hx2
    · rw [h3]; rfl
  rw [h1, h2, List.append_nil]

theorem free_release {R : Rules} {s : State} {b : Board.State} {dn : List Bool} {t i : Nat} (h : Free s b dn [] 0 t) :
    ∃ s', s.input layout R (.release i) = some s' ∧
      Free s' (b.input [] (.release i)) (dn.mapIdx fun id d => d && !(R.keys id).contains i) [] 1 t := by
  obtain ⟨b', dn', la, w', q', d', t', i1, i2, ts⟩ := s
  obtain ⟨h1, h2, h3, h4, h5, h6⟩ := h
  simp only at h1 h2 h3 h4 h5 h6
  subst h1 h2 h3 h4 h5 h6
  exact ⟨_, rfl, rfl, rfl, rfl, rfl, rfl, rfl⟩

/-- C38: a chord was pressed, as in `C38_together`, and all of its keys were taken (one tick more than its keys
after the first). When its first key is then released, the outputs are again the ones from before the chord,
at once. -/
theorem C38_released (hk : ChordsKeymap K refs c ms layout) {calls : List Board.Call} {s : State} (hs : Reaches layout c ms calls s)
    {id f i : Nat} {e : Entry} (h : CanPress layout (chordRulesOf c.chorded ms) s id f e) {gs : List (List Board.Call × Nat)}
    (hgs : Spread gs) (hp : (i :: keysOf gs).Perm ((chordRulesOf c.chorded ms).keys id)) (hr : s.rested (chordRulesOf c.chorded ms) i = true)
    (honly : ∀ id' ∈ s.maybe (chordRulesOf c.chorded ms) i,
      (∀ k ∈ (chordRulesOf c.chorded ms).keys id, k ∈ (chordRulesOf c.chorded ms).keys id') → id' = id)
    (ht : ticksOf gs * ms < c.chorded.timeout) (as ds : List Board.Call) (has : eventsIn as = []) (hall : gs.length < ticksIn as)
    (hds : eventsIn ds = []) (hclk : s.clock + (ticksOf gs + ticksIn as + ticksIn ds) * ms < 2 ^ 32) :
    Outputs K refs S (n + 4) c ms (calls ++ (group i gs ++ (as ++ .input (.release f) :: ds))) s.board.outputs := by
  rw [Nat.add_mul] at hclk
  obtain ⟨s1, r1, _, h1⟩ := together_state hk hs rfl h hgs hp hr honly ht as has (by omega)
  have h1 := h1 (by omega)
  have hl : (keysOf gs).length ≤ ticksIn as - 1 := by simp only [keysOf, List.length_map]; omega
  rw [List.take_of_length_le hl, List.drop_eq_nil_of_le hl, List.map_nil] at h1
  obtain ⟨s2, r2, h2⟩ := free_release (layout := layout) (R := chordRulesOf c.chorded ms) (i := f) h1
  obtain ⟨s3, r3, h3⟩ := free_ticks (layout := layout) (r := chordRulesOf c.chorded ms) (ticksIn ds) h2 (by simp only [chordRulesOf]; omega)
  have := lift (S := S) (n := n) hk hs (group i gs ++ (as ++ .input (.release f) :: ds))
    (by
      intro e he
      simp only [eventsIn_append, eventsIn, has, hds, List.nil_append, List.mem_append, List.mem_cons, List.not_mem_nil, or_false] at he
      rcases he with he | rfl
      · exact group_events hgs e he
      · rfl)
    (s' := s3) (by
      rw [← List.append_assoc, run_append, r1]
      simp only [Option.bind_some, State.run, r2, run_ticks s2 hds]
      exact r3)
  rw [h3.board, holdAll_release h _ (fun k hk => hp.mem_iff.1 hk) (hp.nodup_iff.2 h.nodup)] at this
  exact this

/-! ### Keys of chords, without a chord -/

/-- What a key of chords does alone. -/
def aloneOf : Pos → Entry
  | .plain e => e
  | .first _ e => e
  | .other e => e

theorem entry_alone (r : Rules) (i : Nat) (p : Pos) : p.entry r i .alone = aloneOf p := by cases p <;> rfl

theorem alone_outcome (hk : ChordsKeymap K refs c ms layout) {s : State} {i d : Nat} {p : Pos} {es : List InputEvent} :
    (⟨i, p, s.maybe (chordRulesOf c.chorded ms) i, [i], d, es⟩ : Waiting).outcome (chordRulesOf c.chorded ms) = .alone := by
  refine outcome_alone fun id hid => ?_
  obtain ⟨k, hk1, l, hl, hkl⟩ := hk.two_keys (List.mem_range.1 (List.mem_filter.1 hid).1)
  by_cases h : k = i
  · exact ⟨l, hl, by simp; rintro rfl; exact hkl h⟩
  · exact ⟨k, hk1, by simpa using h⟩

/-- C39: a key of chords is pressed and kept, and no other key is. Before the timeout nothing is output for it;
from the tick at which the timeout is reached it does what it does alone. -/
theorem C39_timeout (hk : ChordsKeymap K refs c ms layout) {calls : List Board.Call} {s : State} (hs : Reaches layout c ms calls s)
    {i : Nat} {p : Pos} (h : CanWait layout (chordRulesOf c.chorded ms) s i p) (ds : List Board.Call) (hds : eventsIn ds = [])
    (hcl : s.clock + ticksIn ds * ms < 2 ^ 32) :
    Outputs K refs S (n + 4) c ms (calls ++ .input (.press i) :: ds)
      (s.board.outputs ++ if ticksIn ds * ms < c.chorded.timeout then [] else ((aloneOf p).pick s.board).output.toList) := by
  have hT := hk.timeout
  have hclk := h.clock
  have hms := hk.tick
  simp only [chordRulesOf] at hclk
  obtain ⟨s1, r1, h1⟩ := canWait_press h
  have hrun : ∀ s', s1.run layout (chordRulesOf c.chorded ms) (List.replicate (ticksIn ds) .tick) = some s' →
      Outputs K refs S (n + 4) c ms (calls ++ .input (.press i) :: ds) s'.board.outputs := by
    intro s' hs'
    refine lift (S := S) (n := n) hk hs _ (by intro e he; simp only [eventsIn, hds, List.mem_cons, List.not_mem_nil, or_false] at he; rw [he]; rfl) ?_
    simp only [State.run, r1, Option.bind_some, run_ticks s1 hds]
    exact hs'
  by_cases hlt : ticksIn ds * ms < c.chorded.timeout
  · rw [if_pos hlt, List.append_nil]
    obtain ⟨s2, r2, h2⟩ := hanging_ticks (layout := layout) (r := chordRulesOf c.chorded ms) (ticksIn ds) h1
      (by simp only [chordRulesOf]; omega) (by simp only [chordRulesOf]; omega)
    have := hrun s2 r2
    rw [h2.board] at this
    exact this
  · rw [if_neg hlt]
    -- the first tick at which the timeout is reached
    obtain ⟨k, hk1, hk2, hk3⟩ : ∃ k, k < ticksIn ds ∧ k * ms < c.chorded.timeout ∧ c.chorded.timeout ≤ (k + 1) * ms := by
      refine ⟨(c.chorded.timeout - 1) / ms, ?_, ?_, ?_⟩
      · rw [Nat.div_lt_iff_lt_mul (by omega)]; omega
      · have := Nat.div_mul_le_self (c.chorded.timeout - 1) ms; omega
      · have := Nat.lt_div_mul_add (a := c.chorded.timeout - 1) (b := ms) (by omega)
        rw [Nat.add_mul, Nat.one_mul]; omega
    have hmul : ticksIn ds * ms = k * ms + ms + (ticksIn ds - (k + 1)) * ms := by
      rw [← Nat.succ_mul, ← Nat.add_mul]; congr 1; omega
    rw [Nat.add_mul, Nat.one_mul] at hk3
    obtain ⟨s2, r2, h2⟩ := hanging_ticks (layout := layout) (r := chordRulesOf c.chorded ms) k h1
      (by simp only [chordRulesOf]; omega) (by simp only [chordRulesOf]; omega)
    obtain ⟨s3, r3, h3⟩ := hanging_timeout (layout := layout) (r := chordRulesOf c.chorded ms) h2
      (by simp only [chordRulesOf]; omega) (by simp only [chordRulesOf]; omega) (by simp [Waiting.kept])
    rw [alone_outcome hk] at h3
    obtain ⟨s4, r4, h4⟩ := free_ticks (layout := layout) (r := chordRulesOf c.chorded ms) (ticksIn ds - (k + 1)) (b := _) (dn := _) (d := _) h3
      (by simp only [chordRulesOf]; omega)
    have := hrun s4 (by
      rw [show ticksIn ds = k + (1 + (ticksIn ds - (k + 1))) by omega, ← List.replicate_append_replicate, ← List.replicate_append_replicate]
      simp only [run_append, r2, Option.bind_some, List.replicate_one, State.run, r3]
      exact r4)
    rw [h4.board] at this
    simp only [decide', entry_alone] at this
    rw [← hold_outputs s.board i]
    exact this

/-- One event is left to take, after the next tick. -/
theorem left_event {R : Rules} {s : State} {b b' : Board.State} {dn dn' : List Bool} {ev : InputEvent} {t : Nat} (h : Free s b dn [ev] 1 t)
    (htake : ∀ s t, Free s b dn [] 0 t → ∃ s', s.take layout R ev = some s' ∧ Free s' b' dn' [] 0 t) (k : Nat) (hc : t + k * R.ms < 2 ^ 32) :
    ∃ s', s.run layout R (List.replicate k .tick) = some s' ∧ s'.board = if k < 2 then b else b' := by
  match k with
  | 0 => exact ⟨s, rfl, h.board⟩
  | 1 =>
    obtain ⟨s1, h1, h2⟩ := free_tick (layout := layout) (r := R) h (.inr (by decide)) (by omega)
    exact ⟨s1, by simp [State.run, h1], h2.board⟩
  | k + 2 =>
    have hm : (k + 2) * R.ms = k * R.ms + R.ms + R.ms := by rw [Nat.add_mul, Nat.two_mul]; omega
    obtain ⟨s1, h1, h2⟩ := free_tick (layout := layout) (r := R) h (.inr (by decide)) (by omega)
    obtain ⟨s2, h3, h4⟩ := free_take (layout := layout) (r := R) h2 (fun s hs => htake s _ hs) (by omega)
    obtain ⟨s3, h5, h6⟩ := free_ticks (layout := layout) (r := R) k h4 (by omega)
    refine ⟨s3, by simp only [List.replicate_succ, State.run, h1, h3, Option.bind_some, h5], ?_⟩
    rw [h6.board, if_neg (by omega)]

/-- C39: a key of chords is pressed and released before the timeout, and no other key is pressed: with the
release it does what it does alone, for two ticks. -/
theorem C39_tap (hk : ChordsKeymap K refs c ms layout) {calls : List Board.Call} {s : State} (hs : Reaches layout c ms calls s)
    {i : Nat} {p : Pos} (h : CanWait layout (chordRulesOf c.chorded ms) s i p) (as ds : List Board.Call) (has : eventsIn as = [])
    (ha1 : 1 ≤ ticksIn as) (ht : ticksIn as * ms < c.chorded.timeout) (hds : eventsIn ds = [])
    (hcl : s.clock + (ticksIn as + ticksIn ds) * ms < 2 ^ 32) :
    Outputs K refs S (n + 4) c ms (calls ++ .input (.press i) :: (as ++ .input (.release i) :: ds))
      (s.board.outputs ++ if ticksIn ds < 2 then ((aloneOf p).pick s.board).output.toList else []) := by
  have hclk := h.clock
  simp only [chordRulesOf] at hclk
  rw [Nat.add_mul] at hcl
  obtain ⟨s1, r1, h1⟩ := canWait_press h
  obtain ⟨s2, r2, h2⟩ := hanging_ticks (layout := layout) (r := chordRulesOf c.chorded ms) (ticksIn as) h1
    (by simp only [chordRulesOf]; omega) (by simp only [chordRulesOf]; omega)
  rw [show 1 - ticksIn as = 0 by omega] at h2
  obtain ⟨s3, r3, h3⟩ := hanging_release (layout := layout) (r := chordRulesOf c.chorded ms) h2 (by simp)
  rw [alone_outcome hk] at h3
  simp only [decide', entry_alone, downs, Waiting.kept, List.nil_append, Chords.ofKey, List.filter_cons, List.filter_nil, decide_true, Bool.not_true,
    Bool.false_eq_true, if_false, if_true, List.getLast?_singleton, Option.toList_some] at h3
  obtain ⟨s4, r4, h4⟩ := left_event (layout := layout) (R := chordRulesOf c.chorded ms)
    (b' := (Chords.hold s.board i ((aloneOf p).pick s.board)).input [] (.release i))
    (dn' := s.down.mapIdx fun id d => d && !((chordRulesOf c.chorded ms).keys id).contains i) h3
    (by
      intro s t hs
      refine ⟨{ s with
        board := s.board.input [] (.release i)
        down := s.down.mapIdx fun id d => d && !((chordRulesOf c.chorded ms).keys id).contains i }, ?_, ?_⟩
      · simp only [State.take, hs.waiting]
      · exact ⟨by rw [hs.board], by rw [hs.down], hs.waiting, hs.queue, hs.delay, hs.clock⟩)
    (ticksIn ds) (by simp only [chordRulesOf]; omega)
  have := lift (S := S) (n := n) hk hs (.input (.press i) :: (as ++ .input (.release i) :: ds))
    (by
      intro e he
      simp only [eventsIn_append, eventsIn, has, hds, List.nil_append, List.mem_cons, List.not_mem_nil, or_false] at he
      rcases he with rfl | rfl <;> rfl)
    (s' := s4) (by
      simp only [State.run, r1, Option.bind_some, run_append, run_ticks s1 has, r2, r3, run_ticks s3 hds]
      exact r4)
  rw [h4] at this
  split
  · rename_i hlt
    rw [if_pos hlt] at this
    rw [← hold_outputs s.board i]
    exact this
  · rename_i hlt
    rw [if_neg hlt] at this
    rw [List.append_nil, ← hold_release h.notHeld ((aloneOf p).pick s.board)]
    exact this

/-- C39: a key of chords is pressed, and before the timeout a key that belongs to no chord. With this press the
first key does what it does alone; the second does what it does two ticks later, so the order of the keys is
kept. -/
theorem C39_outside (hk : ChordsKeymap K refs c ms layout) {calls : List Board.Call} {s : State} (hs : Reaches layout c ms calls s)
    {i j : Nat} {p : Pos} {e : Entry} (h : CanWait layout (chordRulesOf c.chorded ms) s i p) (hj : layout[j]? = some (.plain e))
    (hjk : ∀ ch ∈ c.chorded.chords, j ∉ ch) (hjh : s.board.holds j = false) (hij : j ≠ i)
    (hroom : s.board.held.length + 1 < 16 ∧ s.board.held.length + 1 < c.chorded.maxPressed) (hsize : 2 ≤ c.chorded.maxChordSize)
    (as ds : List Board.Call) (has : eventsIn as = [])
    (ha1 : 1 ≤ ticksIn as) (ht : ticksIn as * ms < c.chorded.timeout) (hds : eventsIn ds = [])
    (hcl : s.clock + (ticksIn as + ticksIn ds) * ms < 2 ^ 32) :
    Outputs K refs S (n + 4) c ms (calls ++ .input (.press i) :: (as ++ .input (.press j) :: ds))
      (s.board.outputs ++ ((aloneOf p).pick s.board).output.toList ++
        if ticksIn ds < 2 then [] else (e.pick (Chords.hold s.board i ((aloneOf p).pick s.board))).output.toList) := by
  have hclk := h.clock
  simp only [chordRulesOf] at hclk
  rw [Nat.add_mul] at hcl
  obtain ⟨s1, r1, h1⟩ := canWait_press h
  obtain ⟨s2, r2, h2⟩ := hanging_ticks (layout := layout) (r := chordRulesOf c.chorded ms) (ticksIn as) h1
    (by simp only [chordRulesOf]; omega) (by simp only [chordRulesOf]; omega)
  rw [show 1 - ticksIn as = 0 by omega] at h2
  have hnot : ∀ id, j ∉ (chordRulesOf c.chorded ms).keys id := by
    intro id hjm
    simp only [Rules.keys, chordRulesOf] at hjm
    cases hg : c.chorded.chords[id]? with
    | none => rw [hg] at hjm; cases hjm
    | some ch => rw [hg] at hjm; exact hjk ch (List.mem_of_getElem? hg) hjm
  obtain ⟨s3, r3, h3⟩ := hanging_decides (layout := layout) (r := chordRulesOf c.chorded ms) (j := j) (o := .alone) h2 (by simp)
    (by simp only [chordRulesOf, List.length_cons, List.length_nil]; omega)
    (by rw [decided_outside (fun id _ => hnot id), alone_outcome hk])
  have hji : ¬ i = j := fun h => hij h.symm
  simp only [decide', entry_alone, downs, Waiting.kept, List.nil_append, Chords.ofKey, List.filter_cons, List.filter_nil, hji, decide_false, Bool.not_false,
    if_true, Bool.false_eq_true, if_false, List.getLast?_nil, Option.toList_none, List.append_nil, List.singleton_append, decide_eq_true_eq] at h3
  obtain ⟨b1, hb1⟩ : ∃ b1, b1 = Chords.hold s.board i ((aloneOf p).pick s.board) := ⟨_, rfl⟩
  rw [← hb1] at h3 ⊢
  have hlen : b1.held.length = s.board.held.length + 1 := by rw [hb1, hold_held']; simp
  have hjn : b1.holds j = false := by
    rw [Bool.eq_false_iff]
    intro hx
    rw [holds_iff, hb1, hold_held', List.map_append, List.mem_append] at hx
    rcases hx with hx | hx
    · rw [holds_iff.2 hx] at hjh; cases hjh
    · simp at hx; exact hij hx
  obtain ⟨s4, r4, h4⟩ := left_event (layout := layout) (R := chordRulesOf c.chorded ms)
    (b' := Chords.hold b1 j (e.pick b1)) (dn' := s.down) h3
    (by
      intro s' t hs'
      refine ⟨{ s' with board := Chords.hold b1 j (e.pick b1) }, ?_, ?_⟩
      · have hbusy : s'.busy (chordRulesOf c.chorded ms) = s.busy (chordRulesOf c.chorded ms) := by
          unfold State.busy
          congr 2
          funext x
          simp only [State.isDown, hs'.down]
        simp only [State.take, hs'.waiting]
        rw [if_pos (by rw [hbusy]; exact Nat.le_trans (once_length_le _ _) (by rw [List.length_nil, Nat.zero_add]; exact h.busy)), hs'.board, hjn, if_neg (by simp),
          if_pos (by simp only [chordRulesOf]; omega), hj]
        simp only [Option.bind_some, State.press, hs'.board, hs'.waiting]
        rfl
      · exact ⟨rfl, hs'.down, hs'.waiting, hs'.queue, hs'.delay, hs'.clock⟩)
    (ticksIn ds) (by simp only [chordRulesOf]; omega)
  have := lift (S := S) (n := n) hk hs (.input (.press i) :: (as ++ .input (.press j) :: ds))
    (by
      intro e he
      simp only [eventsIn_append, eventsIn, has, hds, List.nil_append, List.mem_cons, List.not_mem_nil, or_false] at he
      rcases he with rfl | rfl <;> rfl)
    (s' := s4) (by
      simp only [State.run, r1, Option.bind_some, run_append, run_ticks s1 has, r2, r3, run_ticks s3 hds]
      exact r4)
  rw [h4] at this
  have ho := hold_outputs s.board i ((aloneOf p).pick s.board)
  rw [show Timed.hold s.board i ((aloneOf p).pick s.board) = b1 from hb1.symm] at ho
  rw [← ho]
  split
  · rename_i hlt
    rw [if_pos hlt] at this
    rw [List.append_nil]
    exact this
  · rename_i hlt
    rw [if_neg hlt] at this
    rw [← hold_outputs b1 j]
    exact this

/-! ### Where the outputs come from -/

/-- Everything on the board goes back to events that came. -/
structure Traced (layout : List Pos) (r : Rules) (evs : List InputEvent) (s : State) : Prop where
  held : ∀ x ∈ s.board.held, ∃ p o b, layout[x.1]? = some p ∧ InputEvent.press x.1 ∈ evs ∧ x.2 = (p.entry r x.1 o).pick b ∧
    ∀ id, o = .chord id → ∀ k ∈ r.keys id, InputEvent.press k ∈ evs
  down : ∀ id, s.isDown id = true → ∀ k ∈ r.keys id, InputEvent.press k ∈ evs
  queue : ∀ e ∈ s.queue, e ∈ evs
  waiting : ∀ w, s.waiting = some w → layout[w.key]? = some w.pos ∧ InputEvent.press w.key ∈ evs ∧ (∀ k ∈ w.pressed, InputEvent.press k ∈ evs) ∧
    ∀ e ∈ w.seen, e ∈ evs

theorem Traced.mono {r : Rules} {evs evs' : List InputEvent} {s : State} (h : Traced layout r evs s) (hsub : ∀ e ∈ evs, e ∈ evs') : Traced layout r evs' s := by
  refine ⟨fun x hx => ?_, fun id hid k hk => hsub _ (h.down id hid k hk), fun e he => hsub _ (h.queue e he), fun w hw => ?_⟩
  · obtain ⟨p, o, b, h1, h2, h3, h4⟩ := h.held x hx
    exact ⟨p, o, b, h1, hsub _ h2, h3, fun id ho k hk => hsub _ (h4 id ho k hk)⟩
  · obtain ⟨h1, h2, h3, h4⟩ := h.waiting w hw
    exact ⟨h1, hsub _ h2, fun k hk => hsub _ (h3 k hk), fun e he => hsub _ (h4 e he)⟩

theorem kept_mem {w : Waiting} {e : InputEvent} (h : e ∈ w.kept) : e ∈ w.seen := by
  unfold Waiting.kept at h
  rw [List.mem_append] at h
  rcases h with h | h
  · exact (List.mem_filter.1 h).1
  · rw [Option.mem_toList] at h
    exact (List.mem_filter.1 (List.mem_of_getLast? h)).1

theorem outcome_complete {r : Rules} {w : Waiting} {id : Nat} (h : w.outcome r = .chord id) : ∀ k ∈ r.keys id, k ∈ w.pressed := by
  unfold Waiting.outcome at h
  cases hf : w.maybe.find? (w.complete r) with
  | none => rw [hf] at h; cases h
  | some x =>
    rw [hf] at h
    injection h with h
    subst h
    have := List.find?_some hf
    simpa [Waiting.complete] using this

theorem decided_complete {r : Rules} {w : Waiting} {id j : Nat} (h : w.decided r j = some (.chord id)) : ∀ k ∈ r.keys id, k = j ∨ k ∈ w.pressed := by
  unfold Waiting.decided at h
  intro k hk
  split at h
  · injection h with h
    exact .inr (outcome_complete h k hk)
  · split at h
    · rename_i hc
      injection h with h
      injection h with h
      subst h
      simp only [Waiting.complete, Waiting.join, List.all_eq_true, List.contains_iff_mem, List.mem_cons] at hc
      exact hc k hk
    · cases h
  · cases h

theorem Traced.settle {r : Rules} {evs : List InputEvent} {s s' : State} {w : Waiting} {o : Outcome} (h : Traced layout r evs s)
    (h1 : layout[w.key]? = some w.pos) (h2 : InputEvent.press w.key ∈ evs) (h3 : ∀ e ∈ w.seen, e ∈ evs)
    (h4 : ∀ id, o = .chord id → ∀ k ∈ r.keys id, InputEvent.press k ∈ evs) (hs : s.settle r w o = some s') : Traced layout r evs s' := by
  unfold State.settle at hs
  split at hs
  · injection hs with hs
    subst hs
    refine ⟨fun x hx => ?_, fun id hid => ?_, fun e he => ?_, fun w hw => by cases hw⟩
    · simp only [hold_held', List.mem_append, List.mem_singleton] at hx
      rcases hx with hx | rfl
      · exact h.held x hx
      · exact ⟨w.pos, o, s.board, h1, h2, rfl, h4⟩
    · cases o with
      | alone => exact h.down id hid
      | chord x =>
        by_cases hx : id = x
        · subst hx; exact h4 id rfl
        · refine h.down id ?_
          simp only [State.mark, State.isDown] at hid ⊢
          rw [List.getElem?_set_ne (fun h => hx h.symm)] at hid
          exact hid
    · simp only [List.mem_append] at he
      rcases he with he | he
      · exact h3 e (kept_mem he)
      · exact h.queue e he
  · cases hs

theorem Traced.take {r : Rules} {evs : List InputEvent} {s s' : State} {ev : InputEvent} (h : Traced layout r evs s) (he : ev ∈ evs)
    (hs : s.take layout r ev = some s') : Traced layout r evs s' := by
  unfold State.take at hs
  cases hw : s.waiting with
  | some w =>
    obtain ⟨w1, w2, w3, w4⟩ := h.waiting w hw
    have hseen : ∀ e ∈ w.seen ++ [ev], e ∈ evs := by
      intro e hx
      simp only [List.mem_append, List.mem_singleton] at hx
      rcases hx with hx | rfl
      · exact w4 e hx
      · exact he
    have hkeep : ∀ w' : Waiting, w'.key = w.key → w'.pos = w.pos → (∀ k ∈ w'.pressed, InputEvent.press k ∈ evs) → w'.seen = w.seen ++ [ev] →
        Traced layout r evs { s with waiting := some w' } := by
      intro w' e1 e2 e3 e4
      refine ⟨h.held, h.down, h.queue, fun x hx => ?_⟩
      injection hx with hx
      subst hx
      rw [e1, e2, e4]
      exact ⟨w1, w2, e3, hseen⟩
    rw [hw] at hs
    simp only at hs
    split at hs
    · cases ev with
      | press j =>
        simp only at hs
        split at hs
        · split at hs
          · rename_i o ho
            refine h.settle (w := { w.join r j with seen := w.seen ++ [.press j] }) w1 w2 hseen ?_ hs
            rintro id rfl k hk
            rcases decided_complete ho k hk with rfl | hk
            · exact he
            · exact w3 k hk
          · injection hs with hs
            subst hs
            refine hkeep _ rfl rfl ?_ rfl
            intro k hk
            simp only [Waiting.join, List.mem_cons] at hk
            rcases hk with rfl | hk
            · exact he
            · exact w3 k hk
        · cases hs
      | release j =>
        simp only at hs
        split at hs
        · refine h.settle (w := { w with seen := w.seen ++ [.release j] }) w1 w2 hseen ?_ hs
          intro id ho k hk
          exact w3 k (outcome_complete ho k hk)
        · injection hs with hs
          subst hs
          exact hkeep _ rfl rfl w3 rfl
      | vpress ko =>
        injection hs with hs
        subst hs
        exact hkeep _ rfl rfl w3 rfl
      | vrelease ko =>
        injection hs with hs
        subst hs
        exact hkeep _ rfl rfl w3 rfl
    · cases hs
  | none =>
    rw [hw] at hs
    cases ev with
    | press i =>
      simp only at hs
      split at hs
      · split at hs
        · injection hs with hs; subst hs; exact h
        · split at hs
          · cases hp : layout[i]? with
            | none => rw [hp] at hs; cases hs
            | some p =>
              rw [hp] at hs
              simp only [Option.bind_some] at hs
              have hheld : ∀ o : Outcome, (∀ id, o = .chord id → ∀ k ∈ r.keys id, InputEvent.press k ∈ evs) →
                  Traced layout r evs { s with board := Chords.hold s.board i ((p.entry r i o).pick s.board) } := by
                intro o ho
                refine ⟨fun x hx => ?_, h.down, h.queue, h.waiting⟩
                simp only [hold_held', List.mem_append, List.mem_singleton] at hx
                rcases hx with hx | rfl
                · exact h.held x hx
                · exact ⟨p, o, s.board, hp, he, rfl, ho⟩
              by_cases hpl : ∃ e, p = .plain e
              · obtain ⟨e, rfl⟩ := hpl
                simp only [State.press] at hs
                injection hs with hs
                subst hs
                exact hheld .alone (fun id ho => by cases ho)
              · rw [press_chorded (fun e hpe => hpl ⟨e, hpe⟩)] at hs
                split at hs
                · rename_i id hd
                  injection hs with hs
                  subst hs
                  refine hheld (.chord id) ?_
                  intro id' ho k hk
                  injection ho with ho
                  subst ho
                  have := List.find?_some hd
                  simp only [Bool.and_eq_true] at this
                  exact h.down id this.1 k hk
                · split at hs
                  · injection hs with hs
                    subst hs
                    exact hheld .alone (fun id ho => by cases ho)
                  · split at hs
                    · injection hs with hs
                      subst hs
                      refine ⟨h.held, h.down, h.queue, fun w hw => ?_⟩
                      injection hw with hw
                      subst hw
                      exact ⟨hp, he, by simpa using he, by simp⟩
                    · cases hs
          · cases hs
      · cases hs
    | release i =>
      simp only at hs
      injection hs with hs
      subst hs
      refine ⟨fun x hx => ?_, fun id hid => ?_, h.queue, fun w hw' => by cases hw'⟩
      · simp only [release_held, List.mem_filter] at hx
        exact h.held x hx.1
      · refine h.down id ?_
        simp only [State.isDown, List.getElem?_mapIdx] at hid ⊢
        cases hd : s.down[id]? with
        | none => rw [hd] at hid; cases hid
        | some d =>
          rw [hd] at hid
          simp only [Option.map_some, Option.getD_some, Bool.and_eq_true] at hid ⊢
          exact hid.1
    | vpress ko => injection hs with hs; subst hs; exact h
    | vrelease ko => injection hs with hs; subst hs; exact h

theorem Traced.takeOldest {r : Rules} {evs : List InputEvent} {s s' : State} (h : Traced layout r evs s) (hs : s.takeOldest layout r = some s') :
    Traced layout r evs s' := by
  unfold State.takeOldest at hs
  cases hq : s.queue with
  | nil => rw [hq] at hs; cases hs
  | cons e q =>
    rw [hq] at hs
    simp only at hs
    have hq' : ∀ x ∈ e :: q, x ∈ evs := by rw [← hq]; exact h.queue
    have h1 : Traced layout r evs { s with queue := q } := ⟨h.held, h.down, fun x hx => hq' x (List.mem_cons_of_mem _ hx), h.waiting⟩
    exact h1.take (hq' e List.mem_cons_self) hs

theorem Traced.input {r : Rules} {evs : List InputEvent} {s s' : State} {ev : InputEvent} (h : Traced layout r evs s)
    (hs : s.input layout r ev = some s') : Traced layout r (evs ++ [ev]) s' := by
  have h' := h.mono (evs' := evs ++ [ev]) (fun e he => List.mem_append_left _ he)
  unfold State.input at hs
  simp only at hs
  split at hs
  · injection hs with hs
    subst hs
    exact ⟨h'.held, h'.down, h'.queue, h'.waiting⟩
  · have hq : Traced layout r (evs ++ [ev]) { s with idle := 0, queue := s.queue ++ [ev] } := by
      refine ⟨h'.held, h'.down, fun e he => ?_, h'.waiting⟩
      simp only [List.mem_append, List.mem_singleton] at he ⊢
      exact he.imp (h.queue e) (fun h => h)
    split at hs
    · obtain ⟨s1, h1, h2⟩ := Option.map_eq_some_iff.1 hs
      subst h2
      have := hq.takeOldest h1
      exact ⟨this.held, this.down, this.queue, this.waiting⟩
    · injection hs with hs
      subst hs
      exact hq

theorem Traced.pass {r : Rules} {evs : List InputEvent} {s s' : State} (h : Traced layout r evs s)
    (hs : s.pass r = some s') : Traced layout r evs s' := by
  unfold State.pass at hs
  split at hs
  · have h1 : Traced layout r evs { s with clock := s.clock + r.ms, timers := s.timers.filter (fun t => s.clock + r.ms < t) } := ⟨h.held, h.down, h.queue, h.waiting⟩
    simp only at hs
    split at hs
    · rename_i w hw
      split at hs
      · obtain ⟨w1, w2, w3, w4⟩ := h.waiting w hw
        exact h1.settle w1 w2 w4 (fun id ho k hk => w3 k (outcome_complete ho k hk)) hs
      · injection hs with hs; subst hs; exact h1
    · injection hs with hs; subst hs; exact h1
  · cases hs

theorem Traced.tick {r : Rules} {evs : List InputEvent} {s s' : State} (h : Traced layout r evs s)
    (hs : s.tick layout r = some s') : Traced layout r evs s' := by
  unfold State.tick at hs
  simp only at hs
  obtain ⟨s2, h12, hs⟩ := Option.map_eq_some_iff.1 hs
  obtain ⟨s1, h1, h2⟩ := Option.bind_eq_some_iff.1 h12
  have h0 : Traced layout r evs { s with idleSeen := s.idle } := ⟨h.held, h.down, h.queue, h.waiting⟩
  have hs1 : Traced layout r evs s1 := by
    split at h1
    · exact h0.takeOldest h1
    · injection h1 with h1; subst h1; exact ⟨h0.held, h0.down, h0.queue, h0.waiting⟩
  have := hs1.pass h2
  subst hs
  exact ⟨this.held, this.down, this.queue, this.waiting⟩

theorem Traced.run {r : Rules} {evs : List InputEvent} {s s' : State} (calls : List Board.Call) (h : Traced layout r evs s)
    (hs : s.run layout r calls = some s') : Traced layout r (evs ++ eventsIn calls) s' := by
  induction calls generalizing s evs with
  | nil => injection hs with hs; subst hs; simpa [eventsIn] using h
  | cons a as ih =>
    cases a with
    | input e =>
      obtain ⟨s1, h1, h2⟩ := Option.bind_eq_some_iff.1 hs
      have := ih (h.input h1) h2
      simpa [eventsIn] using this
    | tick =>
      obtain ⟨s1, h1, h2⟩ := Option.bind_eq_some_iff.1 hs
      exact ih (h.tick h1) h2
    | report => exact ih h hs

/-- C37: whatever the history, everything the firmware shows comes from keys that were pressed: it is what a
pressed key does alone, or what a chord does all of whose keys were pressed. -/
theorem C37_only (hk : ChordsKeymap K refs c ms layout) {calls : List Board.Call} {s : State} (hs : Reaches layout c ms calls s) :
    ∃ ks, Outputs K refs S (n + 4) c ms calls ks ∧
      ∀ ko ∈ ks, ∃ i p b, layout[i]? = some p ∧ InputEvent.press i ∈ eventsIn calls ∧
        (((aloneOf p).pick b).output = some ko ∨
          ∃ id, ((p.entry (chordRulesOf c.chorded ms) i (.chord id)).pick b).output = some ko ∧
            ∀ k ∈ (chordRulesOf c.chorded ms).keys id, InputEvent.press k ∈ eventsIn calls) := by
  obtain ⟨km, h1, h2, _⟩ := C37_refines (S := S) (n := n) hk calls hs
  refine ⟨_, ⟨km, h1, h2⟩, ?_⟩
  have h0 : Traced layout (chordRulesOf c.chorded ms) [] (State.new c.layerCount c.chorded.chords.length) := by
    refine ⟨fun x hx => (by cases hx), fun id hid => ?_, fun e he => (by cases he), fun w hw => (by cases hw)⟩
    simp only [State.new, State.isDown, List.getElem?_replicate] at hid
    split at hid <;> cases hid
  have ht := h0.run calls hs.2
  rw [List.nil_append] at ht
  intro ko hko
  obtain ⟨x, hx, hxo⟩ := List.mem_filterMap.1 hko
  obtain ⟨p, o, b, g1, g2, g3, g4⟩ := ht.held x hx
  refine ⟨x.1, p, b, g1, g2, ?_⟩
  rw [g3] at hxo
  cases o with
  | alone => rw [entry_alone] at hxo; exact .inl hxo
  | chord id => exact .inr ⟨id, hxo, g4 id rfl⟩

end Timing

/-! ## A keymap that meets the hypotheses -/

namespace ChordsDemo

/-- A plain key, three keys with two chords, a plain key. -/
def K : Keys where
  chorded := [⟨[(0, .keyboard (.keyCode 30)), (1, .keyboard (.keyCode 31))], .keyboard (.keyCode 5)⟩]
  chordedAux := [.keyboard (.keyCode 6), .keyboard (.keyCode 7)]

def refs : List Ref :=
  [.keyboard (.keyCode 4), .chorded (.chorded 0), .chorded (.auxiliary 0), .chorded (.auxiliary 1), .keyboard (.keyCode 8)]

/-- Keys 1 and 2, and keys 1, 2 and 3; 200 ms, and 30 ms of rest before. -/
def config : Config where
  automation := ⟨[], 0⟩
  chorded := ⟨200, [[1, 2], [1, 2, 3]], some 30, 3, 6⟩
  sticky := .onModifiedKeyRelease
  tapDance := ⟨200⟩
  tapHold := ⟨200, .ignore, none⟩
  layerCount := 0
  maxChords := 2

def out (k : Byte) : Entry := .cell (.out (KeyOutput.fromKeyCode k))

def layout : List Pos := [.plain (out 4), .first [(0, out 30), (1, out 31)] (out 5), .other (out 6), .other (out 7), .plain (out 8)]

theorem keymap (ms : Nat) (hms : 1 ≤ ms) : ChordsKeymap K refs config ms layout where
  layoutEq := by decide +kernel
  fits := by
    intro e he
    simp only [layout, List.mem_cons, List.not_mem_nil, or_false] at he
    rcases he with rfl | rfl | rfl | rfl | rfl <;> simp [Pos.Fits, Entry.Fits, Cell.Fits, out]
  leads := by
    intro i p hp
    match i, hp with
    | 0, hp => cases hp; trivial
    | 1, hp =>
      cases hp
      intro id hid _
      simp only [chordRulesOf, config, List.length_cons, List.length_nil] at hid
      match id, hid with
      | 0, _ => decide
      | 1, _ => decide
    | 2, hp => cases hp; trivial
    | 3, hp => cases hp; trivial
    | 4, hp => cases hp; trivial
    | k + 5, hp => simp [layout] at hp
  size := by decide
  tick := hms
  timeout := by decide
  chordSize := by decide
  two := by decide
  count := by decide

/-- The plain key was pressed four ticks ago and is still held. -/
def calls : List Board.Call := [.input (.press 0), .tick, .tick, .tick, .tick]

def R : Rules := chordRulesOf config.chorded 10

def state : State := (((State.new 0 2).run layout R calls).getD (State.new 0 2))

theorem reaches : Reaches layout config 10 calls state := ⟨by decide, by decide +kernel⟩

theorem outputs : state.board.outputs = [KeyOutput.fromKeyCode 4] := by decide +kernel

theorem clock : state.clock = 40 := by decide +kernel

theorem does0 : Does layout R 0 1 (out 30) := by
  refine ⟨by decide, ⟨_, _, rfl, rfl⟩, ?_⟩
  intro k hk
  have : k = 1 ∨ k = 2 := by simpa [R, chordRulesOf, config, Rules.keys] using hk
  rcases this with rfl | rfl
  · exact ⟨_, rfl, by intro e; simp⟩
  · exact ⟨_, rfl, by intro e; simp⟩

theorem does1 : Does layout R 1 1 (out 31) := by
  refine ⟨by decide, ⟨_, _, rfl, rfl⟩, ?_⟩
  intro k hk
  have : k = 1 ∨ k = 2 ∨ k = 3 := by simpa [R, chordRulesOf, config, Rules.keys] using hk
  rcases this with rfl | rfl | rfl
  · exact ⟨_, rfl, by intro e; simp⟩
  · exact ⟨_, rfl, by intro e; simp⟩
  · exact ⟨_, rfl, by intro e; simp⟩

theorem ready0 : CanPress layout R state 0 1 (out 30) where
  waiting := by decide +kernel
  queue := by decide +kernel
  delay := by decide +kernel
  exists' := by decide
  does := does0
  nodup := by decide
  notHeld := by decide +kernel
  notBusy := by decide +kernel
  held := by decide +kernel
  busy := by decide +kernel
  size := by decide
  timers := by decide +kernel
  clock := by decide +kernel

theorem ready1 : CanPress layout R state 1 1 (out 31) where
  waiting := by decide +kernel
  queue := by decide +kernel
  delay := by decide +kernel
  exists' := by decide
  does := does1
  nodup := by decide
  notHeld := by decide +kernel
  notBusy := by decide +kernel
  held := by decide +kernel
  busy := by decide +kernel
  size := by decide
  timers := by decide +kernel
  clock := by decide +kernel

theorem canWait : CanWait layout R state 2 (.other (out 6)) where
  waiting := by decide +kernel
  queue := by decide +kernel
  delay := by decide +kernel
  pos := rfl
  member := by intro e; simp
  notHeld := by decide +kernel
  notDown := by decide +kernel
  possible := by decide +kernel
  rested := by decide +kernel
  held := by decide +kernel
  busy := by decide +kernel
  timers := by decide +kernel
  clock := by decide +kernel

def shows (calls : List Board.Call) (ks : List Byte) : Prop := Outputs K refs Search.std 4 config 10 calls (ks.map KeyOutput.fromKeyCode)

/-- Keys 3 and 1 after key 2: three ticks, and five ticks with a report. -/
def three : List (List Board.Call × Nat) := [(List.replicate 3 .tick, 3), (.report :: List.replicate 5 .tick, 1)]

theorem spread : Spread three := by
  intro g hg
  simp only [three, List.mem_cons, List.not_mem_nil, or_false] at hg
  rcases hg with rfl | rfl <;> decide

/-- Keys 2, 3 and 1 are pressed: chord 1, whose first key is taken three ticks after the last press. -/
example : shows (calls ++ (group 2 three ++ List.replicate 2 .tick)) [4] := by
  have := C38_together (S := Search.std) (n := 0) (keymap 10 (by decide)) reaches ready1 (i := 2) spread (by decide) (by decide +kernel)
    (by decide +kernel) (by decide) (List.replicate 2 .tick) (by decide) (by rw [clock]; decide)
  rw [outputs] at this
  exact this

example : shows (calls ++ (group 2 three ++ List.replicate 3 .tick)) [4, 31] := by
  have := C38_together (S := Search.std) (n := 0) (keymap 10 (by decide)) reaches ready1 (i := 2) spread (by decide) (by decide +kernel)
    (by decide +kernel) (by decide) (List.replicate 3 .tick) (by decide) (by rw [clock]; decide)
  rw [outputs] at this
  exact this

/-- The first key of the chord is released: the output is gone. -/
example : shows (calls ++ (group 2 three ++ (List.replicate 3 .tick ++ .input (.release 1) :: []))) [4] := by
  have := C38_released (S := Search.std) (n := 0) (keymap 10 (by decide)) reaches ready1 (i := 2) spread (by decide) (by decide +kernel)
    (by decide +kernel) (by decide) (List.replicate 3 .tick) [] (by decide) (by decide) (by decide) (by rw [clock]; decide)
  rw [outputs] at this
  exact this

/-- Keys 1 and 2. -/
def two : List (List Board.Call × Nat) := [(List.replicate 3 .tick, 2)]

theorem spread2 : Spread two := by
  intro g hg
  simp only [two, List.mem_cons, List.not_mem_nil, or_false] at hg
  subst hg
  decide

/-- Keys 1 and 2 of chord 1 are not all of its keys: nothing, until 200 ms after the first press. -/
example : shows (calls ++ (group 1 two ++ List.replicate 16 .tick)) [4] := by
  have := C37_silent (S := Search.std) (n := 0) (keymap 10 (by decide)) reaches ready1 (i := 1) spread2 (by decide) (by decide) (by decide) (by decide +kernel)
    (List.replicate 16 .tick) (by decide) (by decide)
  rw [outputs] at this
  exact this

/-- They are all keys of chord 0: at 200 ms it is decided. -/
example : shows (calls ++ (group 1 two ++ (List.replicate 17 .tick ++ []))) [4, 30] := by
  have := (C38_larger (S := Search.std) (n := 0) (keymap 10 (by decide)) reaches ready0 (i := 1) spread2 (by decide) (by decide +kernel)
    ⟨1, by decide +kernel, by decide, by decide⟩
    (by
      intro id' hid' hsame
      have h3 := hsame 3
      have hid : id' < 2 := List.mem_range.1 (List.mem_filter.1 hid').1
      match id', hid with
      | 0, _ => rfl
      | 1, _ => simp [chordRulesOf, config, Rules.keys] at h3) (by decide)).2
    (List.replicate 17 .tick) [] (by decide) rfl (by decide) (by decide) (by rw [clock]; decide)
  rw [outputs] at this
  exact this

/-- Or when key 1 is released. -/
example : shows (calls ++ (group 1 two ++ ([.tick] ++ .input (.release 1) :: [.tick]))) [4, 30] := by
  have := C38_larger_release (S := Search.std) (n := 0) (keymap 10 (by decide)) reaches ready0 (i := 1) spread2 (by decide) (by decide +kernel)
    ⟨1, by decide +kernel, by decide, by decide⟩
    (by
      intro id' hid' hsame
      have h3 := hsame 3
      have hid : id' < 2 := List.mem_range.1 (List.mem_filter.1 hid').1
      match id', hid with
      | 0, _ => rfl
      | 1, _ => simp [chordRulesOf, config, Rules.keys] at h3) (by decide) [.tick] [.tick] rfl (by decide) (by decide) rfl (by decide) (by rw [clock]; decide)
  rw [outputs] at this
  exact this

/-- Key 2 alone, kept, tapped, and with a plain key after it. -/
example : shows (calls ++ .input (.press 2) :: List.replicate 19 .tick) [4] := by
  have := C39_timeout (S := Search.std) (n := 0) (keymap 10 (by decide)) reaches canWait (List.replicate 19 .tick) (by decide) (by rw [clock]; decide)
  rw [outputs] at this
  exact this

example : shows (calls ++ .input (.press 2) :: List.replicate 25 .tick) [4, 6] := by
  have := C39_timeout (S := Search.std) (n := 0) (keymap 10 (by decide)) reaches canWait (List.replicate 25 .tick) (by decide) (by rw [clock]; decide)
  rw [outputs] at this
  exact this

example : shows (calls ++ .input (.press 2) :: ([.tick] ++ .input (.release 2) :: [.tick])) [4, 6] := by
  have := C39_tap (S := Search.std) (n := 0) (keymap 10 (by decide)) reaches canWait [.tick] [.tick] rfl (by decide) (by decide) rfl (by rw [clock]; decide)
  rw [outputs] at this
  exact this

example : shows (calls ++ .input (.press 2) :: ([.tick] ++ .input (.press 4) :: [.tick, .tick])) [4, 6, 8] := by
  have := C39_outside (S := Search.std) (n := 0) (keymap 10 (by decide)) reaches canWait (j := 4) (e := out 8) rfl (by decide) (by decide +kernel) (by decide)
    (by decide +kernel) (by decide) [.tick] [.tick, .tick] rfl (by decide) (by decide) rfl (by rw [clock]; decide)
  rw [outputs] at this
  exact this

/-- And the firmware shows what the board shows. -/
example : Shows K refs Search.std 4 config 10 calls state := C37_refines (S := Search.std) (n := 0) (keymap 10 (by decide)) calls reaches

end ChordsDemo

end Verif.Comp.CH
