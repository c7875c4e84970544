import Verif.Lemmas.OneShotInv

/-!
# C29: sticky layers, end to end

The firmware, with all of its queues, contexts and key states, does what the keyboard of `Spec/OneShot.lean`
does, for every layout of plain keys, layer keys and sticky layer keys and every history of key events, ticks
and reports; and what follows for a sticky layer key that is tapped, and for one that is held while other
keys are pressed.
-/

namespace Verif.Comp

open OneShot

/-- The keymap data: a layout of plain keys, layer keys and sticky layer keys, whose layers exist, at most
65535 positions, and an array of pressed indices that is absent or as large as the number of keys that can
be held. -/
structure OneShots (K : Keys) (refs : List Ref) (c : Config) (layout : List Pos) : Prop where
  layoutEq : onceLayoutOf K refs = some layout
  fits : ∀ p ∈ layout, p.Fits c.layerCount
  size : layout.length ≤ 65535
  chords : c.chorded.maxPressed = 0 ∨ 16 ≤ c.chorded.maxPressed

section

variable {K : Keys} {refs : List Ref} {S : Search} {layout : List Pos} {n : Nat}

/-- C29: as long as the keyboard takes the events, no call of the firmware panics, the pressed outputs are
the outputs of the held keys in the order they were pressed, and the same events wait. -/
theorem C29_refines {c : Config} (hp : OneShots K refs c layout) (calls : List Board.Call) (hev : ∀ e ∈ eventsIn calls, isPhysical e = true)
    (ht : ticksIn calls < u32Size) {m : Queued} (hm : (Queued.new c.layerCount).run layout calls = some m) :
    ∃ km, run ⟨system K, refs, S⟩ (n + 18) (KM.new (Ctx.fromConfig c)) (calls.map toOp) = .ok km ∧
      km.pressedKeys ⟨system K, refs, S⟩ = .ok m.board.outputs ∧ km.inq = m.queue := by
  obtain ⟨km, h1, h2⟩ := (OSimQ.start (K := K) hp.chords).run (S := S) (n := n) hp.layoutEq hp.fits hp.size calls hev (by omega) hm
  exact ⟨km, h1, h2.rel.held.outputs, h2.inq⟩

theorem orun_idle (s : State) (k : Nat) (cs : List Board.Call) :
    Queued.run layout ⟨s, [], 0⟩ (List.replicate k .tick ++ cs) = Queued.run layout ⟨s, [], 0⟩ cs := by
  induction k with
  | zero => rfl
  | succ k ih => simpa [List.replicate_succ, Queued.run, Queued.tick] using ih

theorem orun_paced {s s' : State} {es : List (InputEvent × Nat)} (h : s.inputs layout (es.map Prod.fst) = some s') :
    Queued.run layout ⟨s, [], 0⟩ (paced es) = some ⟨s', [], 0⟩ := by
  induction es generalizing s with
  | nil => cases h; rfl
  | cons x es ih =>
    obtain ⟨e, k⟩ := x
    obtain ⟨s1, h1, h2⟩ := Option.bind_eq_some_iff.1 h
    have hi : Queued.input layout ⟨s, [], 0⟩ e = some ⟨s1, [], 1⟩ := by
      simp only at h1
      simp [Queued.input, Queued.take, h1]
    have ht : Queued.tick layout ⟨s1, [], 1⟩ = some ⟨s1, [], 0⟩ := rfl
    simp only [paced, Queued.run, hi, ht, Option.bind_some]
    rw [orun_idle]
    exact ih h2

/-- For a host that polls (at least one tick after every key event), nothing waits, and the outputs are
those of the keys held according to the history of events. -/
theorem C29_polled {c : Config} (hp : OneShots K refs c layout) (es : List (InputEvent × Nat)) (hev : ∀ e ∈ es, isPhysical e.1 = true)
    (ht : ticksIn (paced es) < u32Size) {s : State} (hs : (State.new c.layerCount).inputs layout (es.map Prod.fst) = some s) :
    ∃ km, run ⟨system K, refs, S⟩ (n + 18) (KM.new (Ctx.fromConfig c)) ((paced es).map toOp) = .ok km ∧
      km.pressedKeys ⟨system K, refs, S⟩ = .ok s.outputs ∧ km.inq = [] := by
  refine C29_refines hp (paced es) ?_ ht (orun_paced hs)
  rw [eventsIn_paced]
  intro e he
  obtain ⟨x, hx, rfl⟩ := List.mem_map.1 he
  exact hev x hx

/-! ## One sticky layer key -/

/-- After the events `es0` the keyboard is in state `s`, key `j` would be a sticky key of layer `l`, no layer
is on for one key, no sticky layer key is held, and no held key has to do with layer `l`. -/
structure OnceReady (c : Config) (layout : List Pos) (es0 : List InputEvent) (s : State) (j l : Nat) : Prop where
  history : (State.new c.layerCount).inputs layout es0 = some s
  key : ∃ p, layout[j]? = some p ∧ p.pick s = .oneShot l
  free : s.holds j = false
  once : s.once = none
  shots : ∀ i l', (i, Act.oneShot l') ∉ s.held
  others : ∀ p ∈ s.held, p.2.touches l = false
  few : s.held.length < 15

/-- The held keys of a state that can be reached. -/
structure OnceSound (n : Nat) (s : State) : Prop where
  fits : ∀ p ∈ s.held, p.2.Fits n
  nodup : (s.held.map Prod.fst).Nodup
  length : s.layers.length = n

theorem OnceSound.input {n : Nat} (hfit : ∀ p ∈ layout, p.Fits n) {e : InputEvent} {s s' : State} (h : OnceSound n s) (hs : s.input layout e = some s') :
    OnceSound n s' := by
  cases e with
  | press i =>
    simp only [State.input, State.press] at hs
    have hheld := interrupt_held s i
    have hlen : ((s.use i).interrupt).layers.length = n := by
      simp only [State.interrupt]
      rw [holdAll_length, use_length, h.length]
    have hfits : ∀ p ∈ ((s.use i).interrupt).held, p.2.Fits n := by
      rw [hheld]
      intro p hp
      obtain ⟨q, hq, rfl⟩ := List.mem_map.1 hp
      exact act_interrupt_fits (h.fits q hq)
    have hnd : (((s.use i).interrupt).held.map Prod.fst).Nodup := by rw [hheld, map_fst_interrupt]; exact h.nodup
    by_cases hh : s.holds i = true
    · rw [if_pos hh] at hs
      cases hs
      exact ⟨hfits, hnd, hlen⟩
    · rw [if_neg hh] at hs
      split at hs
      · obtain ⟨p, hp, rfl⟩ := Option.map_eq_some_iff.1 hs
        have hf := pick_fits (hfit p (List.mem_of_getElem? hp)) (s.use i)
        generalize p.pick (s.use i) = a at hf
        refine ⟨?_, ?_, ?_⟩
        · rw [act_press_held]
          intro q hq
          simp only [List.mem_append, List.mem_cons, List.not_mem_nil, or_false] at hq
          rcases hq with hq | rfl
          · exact hfits q hq
          · exact hf
        · rw [act_press_held]
          simp only
          rw [List.map_append, List.nodup_append]
          refine ⟨hnd, by simp, ?_⟩
          intro x hx y hy
          have : y = i := by simpa using hy
          subst this
          rintro rfl
          rw [hheld, map_fst_interrupt] at hx
          exact hh (oholds_iff.2 hx)
        · rw [act_press_length]
          exact hlen
      · cases hs
  | release i =>
    cases hs
    refine ⟨?_, release_nodup i h.nodup, (release_layers_length s i).trans h.length⟩
    intro p hp
    simp only [State.release] at hp
    split at hp
    · rw [act_release_held] at hp
      exact h.fits p (List.mem_filter.1 hp).1
    · rw [used_held] at hp
      exact h.fits p hp
  | vpress ko => cases hs
  | vrelease ko => cases hs

theorem OnceSound.inputs {n : Nat} (hfit : ∀ p ∈ layout, p.Fits n) (es : List InputEvent) {s s' : State} (h : OnceSound n s)
    (hs : s.inputs layout es = some s') : OnceSound n s' := by
  induction es generalizing s with
  | nil => cases hs; exact h
  | cons e es ih =>
    obtain ⟨s1, h1, h2⟩ := Option.bind_eq_some_iff.1 hs
    exact ih (h.input hfit h1) h2

theorem OnceSound.new (n : Nat) : OnceSound n (State.new n) := ⟨by simp [State.new], by simp [State.new], by simp [State.new]⟩

theorem OnceReady.sound {c : Config} (hp : OneShots K refs c layout) {es0 : List InputEvent} {s : State} {j l : Nat} (h : OnceReady c layout es0 s j l) :
    OnceSound c.layerCount s := (OnceSound.new _).inputs hp.fits es0 h.history

theorem OnceReady.calm {c : Config} (hp : OneShots K refs c layout) {es0 : List InputEvent} {s : State} {j l : Nat} (h : OnceReady c layout es0 s j l) :
    s.Calm l := by
  have hs := h.sound hp
  obtain ⟨p, h1, h2⟩ := h.key
  have hf := pick_fits (hp.fits p (List.mem_of_getElem? h1)) s
  rw [h2] at hf
  refine ⟨h.once, h.shots, ?_, by rw [hs.length]; exact hs.fits, by rw [hs.length]; exact hf⟩
  intro i hi
  have := h.others _ hi
  simp [Act.touches] at this

theorem osnoc_press (s : State) (k : Nat) : s.inputs layout [.press k] = s.press layout k := by
  simp only [State.inputs, State.input]
  cases s.press layout k <;> rfl

/-- The state after tapping the key and releasing other keys. -/
theorem OnceReady.tapped {c : Config} (hp : OneShots K refs c layout) {es0 : List InputEvent} {s : State} {j l : Nat} (h : OnceReady c layout es0 s j l)
    (rs : List Nat) : (State.new c.layerCount).inputs layout (es0 ++ [.press j, .release j] ++ rs.map .release) = some ((s.releases rs).armed l none) := by
  have hc := h.calm hp
  have hfew := h.few
  obtain ⟨p, h1, h2⟩ := h.key
  rw [inputs_append_o, inputs_append_o, h.history, Option.bind_some, tap_oneShot hc (by omega) h1 h.free h2, Option.bind_some, inputs_releases,
    armed_releases hc (by simp)]

/-- C29: a sticky layer key is tapped. The key pressed next (keys held before may be released meanwhile) is
the key of that layer. -/
theorem C29_next_key {c : Config} (hp : OneShots K refs c layout) {es0 : List InputEvent} {s : State} {j l : Nat} (h : OnceReady c layout es0 s j l)
    (rs : List Nat) {k : Nat} {p : Pos} {ko : KeyOutput} (hk : layout[k]? = some p) (hnh : s.holds k = false)
    (hpick : p.pick ((s.releases rs).turn l .on) = .cell (.out ko)) (es : List (InputEvent × Nat)) (hev : ∀ e ∈ es, isPhysical e.1 = true)
    (ht : ticksIn (paced es) < u32Size) (hes : es.map Prod.fst = es0 ++ [.press j, .release j] ++ rs.map .release ++ [.press k]) :
    ∃ km, run ⟨system K, refs, S⟩ (n + 18) (KM.new (Ctx.fromConfig c)) ((paced es).map toOp) = .ok km ∧
      km.pressedKeys ⟨system K, refs, S⟩ = .ok ((s.releases rs).outputs ++ [ko]) := by
  have hc := (h.calm hp).releases rs
  have hlen := releases_length s rs
  have hfew := h.few
  have hs : (State.new c.layerCount).inputs layout (es.map Prod.fst) = some (((s.releases rs).add k (.cell (.out ko))).armed l (some k)) := by
    rw [hes, inputs_append_o, h.tapped hp rs, Option.bind_some, osnoc_press, press_armed hc (by omega) hk (releases_holds hnh) hpick]
  obtain ⟨km, k1, k2, _⟩ := C29_polled (S := S) (n := n) hp es hev ht hs
  refine ⟨km, k1, ?_⟩
  rw [k2]
  simp [State.outputs, State.armed, State.turn, State.add, Act.output, Board.Cell.output]

/-- C29: once that key is released, the layer is off for the keys that follow. -/
theorem C29_key_after {c : Config} (hp : OneShots K refs c layout) {es0 : List InputEvent} {s : State} {j l : Nat} (h : OnceReady c layout es0 s j l)
    (rs rs' : List Nat) {k : Nat} {p : Pos} {ko : KeyOutput} (hk : layout[k]? = some p) (hnh : s.holds k = false)
    (hpick : p.pick ((s.releases rs).turn l .on) = .cell (.out ko)) (hrs' : k ∉ rs')
    {x : Nat} {px : Pos} {kx : KeyOutput} (hx : layout[x]? = some px) (hnx : s.holds x = false)
    (hpx : px.pick (((s.releases rs).releases rs').turn l .off) = .cell (.out kx))
    (es : List (InputEvent × Nat)) (hev : ∀ e ∈ es, isPhysical e.1 = true) (ht : ticksIn (paced es) < u32Size)
    (hes : es.map Prod.fst = es0 ++ [.press j, .release j] ++ rs.map .release ++ [.press k] ++ rs'.map .release ++ [.release k, .press x]) :
    ∃ km, run ⟨system K, refs, S⟩ (n + 18) (KM.new (Ctx.fromConfig c)) ((paced es).map toOp) = .ok km ∧
      km.pressedKeys ⟨system K, refs, S⟩ = .ok (((s.releases rs).releases rs').outputs ++ [kx]) := by
  have hc := (h.calm hp).releases rs
  have hc' := hc.releases rs'
  have hlen := releases_length s rs
  have hlen' := releases_length (s.releases rs) rs'
  have hfew := h.few
  obtain ⟨t, htd⟩ : ∃ t, t = (s.releases rs).releases rs' := ⟨_, rfl⟩
  have hnk : (s.releases rs).holds k = false := releases_holds hnh
  have h1 : (((s.releases rs).add k (Act.cell (.out ko))).armed l (some k)).releases rs' = (t.add k (Act.cell (.out ko))).armed l (some k) := by
    have e : ((s.releases rs).add k (Act.cell (.out ko))).Calm l := by
      refine ⟨hc.once, ?_, ?_, ?_, hc.range⟩
      · intro i l' hi
        rcases List.mem_append.1 hi with hi | hi
        · exact hc.shots i l' hi
        · simp at hi
      · intro i hi
        rcases List.mem_append.1 hi with hi | hi
        · exact hc.holds i hi
        · simp at hi
      · intro q hq
        rcases List.mem_append.1 hq with hq | hq
        · exact hc.fits q hq
        · have : q = (k, Act.cell (.out ko)) := by simpa using hq
          subst this
          trivial
    rw [armed_releases e (by rintro i hi ⟨⟩; exact hrs' hi), releases_snoc (by rintro i hi rfl; exact hrs' hi) hnk, htd]
  have hs : (State.new c.layerCount).inputs layout (es.map Prod.fst) =
      some { { t.turn l .off with user := none } with held := t.held ++ [(x, .cell (.out kx))] } := by
    rw [hes, inputs_append_o, inputs_append_o, inputs_append_o, h.tapped hp rs, Option.bind_some, osnoc_press,
      press_armed hc (by omega) hk hnk hpick, Option.bind_some, inputs_releases, h1, Option.bind_some]
    rw [show ([.release k, .press x] : List InputEvent) = [.release k] ++ [.press x] from rfl, inputs_append_o]
    rw [show ((t.add k (Act.cell (.out ko))).armed l (some k)).inputs layout [.release k] =
      some (((t.add k (Act.cell (.out ko))).armed l (some k)).release k) from rfl]
    subst htd
    rw [release_armed hc' (releases_holds hnk), Option.bind_some, osnoc_press]
    exact press_calm (s := { ((s.releases rs).releases rs').turn l .off with user := none }) (off_once hc'.once) hc'.shots
      (show ((s.releases rs).releases rs').held.length < 16 by omega) hx (releases_holds (releases_holds hnx)) (by
        rw [← hpx]
        exact pick_congr_o (s := ((s.releases rs).releases rs').turn l .off) (s' := { ((s.releases rs).releases rs').turn l .off with user := none })
          rfl rfl px)
  obtain ⟨km, k1, k2, _⟩ := C29_polled (S := S) (n := n) hp es hev ht hs
  refine ⟨km, k1, ?_⟩
  rw [k2, ← htd]
  simp [State.outputs, Act.output, Board.Cell.output]

/-- C29: while that key is held, the layer is off for a second key too, and the first keeps its output. -/
theorem C29_second_key {c : Config} (hp : OneShots K refs c layout) {es0 : List InputEvent} {s : State} {j l : Nat} (h : OnceReady c layout es0 s j l)
    (rs rs' : List Nat) {k : Nat} {p : Pos} {ko : KeyOutput} (hk : layout[k]? = some p) (hnh : s.holds k = false)
    (hpick : p.pick ((s.releases rs).turn l .on) = .cell (.out ko)) (hrs' : k ∉ rs')
    {x : Nat} {px : Pos} {kx : KeyOutput} (hx : layout[x]? = some px) (hnx : s.holds x = false) (hxk : x ≠ k)
    (hpx : px.pick (((s.releases rs).releases rs').turn l .off) = .cell (.out kx))
    (es : List (InputEvent × Nat)) (hev : ∀ e ∈ es, isPhysical e.1 = true) (ht : ticksIn (paced es) < u32Size)
    (hes : es.map Prod.fst = es0 ++ [.press j, .release j] ++ rs.map .release ++ [.press k] ++ rs'.map .release ++ [.press x]) :
    ∃ km, run ⟨system K, refs, S⟩ (n + 18) (KM.new (Ctx.fromConfig c)) ((paced es).map toOp) = .ok km ∧
      km.pressedKeys ⟨system K, refs, S⟩ = .ok (((s.releases rs).releases rs').outputs ++ [ko, kx]) := by
  have hc := (h.calm hp).releases rs
  have hc' := hc.releases rs'
  have hlen := releases_length s rs
  have hlen' := releases_length (s.releases rs) rs'
  have hfew := h.few
  have hnk : (s.releases rs).holds k = false := releases_holds hnh
  have h1 : (((s.releases rs).add k (Act.cell (.out ko))).armed l (some k)).releases rs' =
      (((s.releases rs).releases rs').add k (Act.cell (.out ko))).armed l (some k) := by
    have e : ((s.releases rs).add k (Act.cell (.out ko))).Calm l := by
      refine ⟨hc.once, ?_, ?_, ?_, hc.range⟩
      · intro i l' hi
        rcases List.mem_append.1 hi with hi | hi
        · exact hc.shots i l' hi
        · simp at hi
      · intro i hi
        rcases List.mem_append.1 hi with hi | hi
        · exact hc.holds i hi
        · simp at hi
      · intro q hq
        rcases List.mem_append.1 hq with hq | hq
        · exact hc.fits q hq
        · have : q = (k, Act.cell (.out ko)) := by simpa using hq
          subst this
          trivial
    rw [armed_releases e (by rintro i hi ⟨⟩; exact hrs' hi), releases_snoc (by rintro i hi rfl; exact hrs' hi) hnk]
  have hs : (State.new c.layerCount).inputs layout (es.map Prod.fst) = some { ((s.releases rs).releases rs').turn l .off with
      held := ((s.releases rs).releases rs').held ++ [(k, .cell (.out ko)), (x, .cell (.out kx))], user := none } := by
    rw [hes, inputs_append_o, inputs_append_o, inputs_append_o, h.tapped hp rs, Option.bind_some, osnoc_press,
      press_armed hc (by omega) hk hnk hpick, Option.bind_some, inputs_releases, h1, Option.bind_some, osnoc_press]
    exact press_again hc' (by omega) hx (releases_holds (releases_holds hnx)) hxk hpx
  obtain ⟨km, k1, k2, _⟩ := C29_polled (S := S) (n := n) hp es hev ht hs
  refine ⟨km, k1, ?_⟩
  rw [k2]
  simp [State.outputs, Act.output, Board.Cell.output]

/-- The state while an interrupted sticky layer key is held. -/
theorem OnceReady.held {c : Config} (hp : OneShots K refs c layout) {es0 : List InputEvent} {s s' : State} {j l : Nat} (h : OnceReady c layout es0 s j l)
    (hsp : ∀ (x : Nat) p, layout[x]? = some p → x ≠ j → p.Spares l) {rs : List Nat} (hrs : j ∉ rs) {k : Nat} {evs : List InputEvent}
    (hevs : .release j ∉ evs)
    (hs : (State.new c.layerCount).inputs layout (es0 ++ [.press j] ++ rs.map .release ++ [.press k] ++ evs) = some s') :
    s'.Holding c.layerCount j l ∧ l ≤ s'.layers.length := by
  have hc := h.calm hp
  have hc' := hc.releases rs
  have hso := h.sound hp
  have hfew := h.few
  obtain ⟨p, h1, h2⟩ := h.key
  have e1 : ((s.add j (Act.oneShot l)).armed l none).releases rs = ((s.releases rs).add j (Act.oneShot l)).armed l none := by
    have gen : ∀ (rs : List Nat) (s : State), s.Calm l → j ∉ rs → s.holds j = false →
        ((s.add j (Act.oneShot l)).armed l none).releases rs = ((s.releases rs).add j (Act.oneShot l)).armed l none := by
      intro rs
      induction rs with
      | nil => intro s _ _ _; rfl
      | cons i is ih =>
        intro s hs hj hh
        simp only [List.mem_cons, not_or] at hj
        have : ((s.add j (Act.oneShot l)).armed l none).release i = ((s.release i).add j (Act.oneShot l)).armed l none := by
          rw [show (s.add j (Act.oneShot l)).armed l none = (s.armed l none).add j (Act.oneShot l) from rfl,
            release_snoc (Ne.symm hj.1) (show (s.armed l none).holds j = false from hh), armed_release hs (by simp)]
          rfl
        show (((s.add j (Act.oneShot l)).armed l none).release i).releases is = _
        rw [this, ih (s.release i) (hs.release i) hj.2 (release_holds i hh)]
        rfl
    exact gen rs s hc hrs h.free
  rw [inputs_append_o, inputs_append_o, inputs_append_o, inputs_append_o, h.history, Option.bind_some, osnoc_press,
    press_oneShot hc (by omega) h1 h.free h2, Option.bind_some, inputs_releases, e1, Option.bind_some] at hs
  obtain ⟨s1, hs1, hs2⟩ := Option.bind_eq_some_iff.1 hs
  rw [osnoc_press] at hs1
  have hint := interrupt_holding (s := s.releases rs) (j := j) (l := l) k hc' (releases_holds h.free) (releases_touches rs h.others)
    (releases_nodup rs hso.nodup)
  rw [releases_layers_length, hso.length] at hint
  have hh := State.Holding.press hint hp.fits hsp (oholds_iff.2 (by simp [State.armed, State.turn, State.add])) hs1
  have hf := hh.inputs hp.fits hsp evs hevs hs2
  refine ⟨hf, ?_⟩
  have := (List.getElem?_eq_some_iff.1 hf.on).1
  have := hf.pos
  omega

/-- C29: a sticky layer key that is held when another key is pressed acts like a key that holds the layer:
as long as it is held, whatever else is typed, a key pressed is the key of that layer (if it has one there
and none on a higher layer). No other key of the keymap changes that layer. -/
theorem C29_hold {c : Config} (hp : OneShots K refs c layout) {es0 : List InputEvent} {s s' : State} {j l : Nat} (h : OnceReady c layout es0 s j l)
    (hsp : ∀ (x : Nat) p, layout[x]? = some p → x ≠ j → p.Spares l) {rs : List Nat} (hrs : j ∉ rs) {k : Nat} {evs : List InputEvent}
    (hevs : .release j ∉ evs)
    (hs : (State.new c.layerCount).inputs layout (es0 ++ [.press j] ++ rs.map .release ++ [.press k] ++ evs) = some s')
    {x : Nat} {base : Act} {as : List (Option Act)} {kx : KeyOutput} (hx : layout[x]? = some (.layered base as)) (hnx : s'.holds x = false)
    (hlen : s'.held.length < 16) (ha : as[l - 1]? = some (some (.cell (.out kx)))) (htop : ∀ (m : Nat) a, as[m]? = some (some a) → m ≤ l - 1)
    (es : List (InputEvent × Nat)) (hev : ∀ e ∈ es, isPhysical e.1 = true) (ht : ticksIn (paced es) < u32Size)
    (hes : es.map Prod.fst = es0 ++ [.press j] ++ rs.map .release ++ [.press k] ++ evs ++ [.press x]) :
    ∃ km, run ⟨system K, refs, S⟩ (n + 18) (KM.new (Ctx.fromConfig c)) ((paced es).map toOp) = .ok km ∧
      km.pressedKeys ⟨system K, refs, S⟩ = .ok (s'.outputs ++ [kx]) := by
  obtain ⟨hh, _⟩ := h.held hp hsp hrs hevs hs
  obtain ⟨s2, h1, h2⟩ := press_outputs hx hnx hlen (pick_top (use_on hh.on x) ha htop)
  obtain ⟨km, k1, k2, _⟩ := C29_polled (S := S) (n := n) hp es hev ht (s := s2) (by rw [hes, inputs_append_o, hs, Option.bind_some, osnoc_press, h1])
  exact ⟨km, k1, by rw [k2, h2]⟩

/-- C29: when it is released, the layer is off: a key with nothing on other layers is its base key. -/
theorem C29_hold_released {c : Config} (hp : OneShots K refs c layout) {es0 : List InputEvent} {s s' : State} {j l : Nat}
    (h : OnceReady c layout es0 s j l) (hsp : ∀ (x : Nat) p, layout[x]? = some p → x ≠ j → p.Spares l) {rs : List Nat} (hrs : j ∉ rs) {k : Nat}
    {evs : List InputEvent} (hevs : .release j ∉ evs)
    (hs : (State.new c.layerCount).inputs layout (es0 ++ [.press j] ++ rs.map .release ++ [.press k] ++ evs) = some s')
    {x : Nat} {as : List (Option Act)} {kx : KeyOutput} (hx : layout[x]? = some (.layered (.cell (.out kx)) as))
    (hnx : (s'.release j).holds x = false) (hlen : (s'.release j).held.length < 16) (hone : ∀ (m : Nat) a, as[m]? = some (some a) → m = l - 1)
    (hd : ∀ d, (s'.release j).dflt = some d → d - 1 ≠ l - 1)
    (es : List (InputEvent × Nat)) (hev : ∀ e ∈ es, isPhysical e.1 = true) (ht : ticksIn (paced es) < u32Size)
    (hes : es.map Prod.fst = es0 ++ [.press j] ++ rs.map .release ++ [.press k] ++ evs ++ [.release j, .press x]) :
    ∃ km, run ⟨system K, refs, S⟩ (n + 18) (KM.new (Ctx.fromConfig c)) ((paced es).map toOp) = .ok km ∧
      km.pressedKeys ⟨system K, refs, S⟩ = .ok ((s'.release j).outputs ++ [kx]) := by
  obtain ⟨hh, hl⟩ := h.held hp hsp hrs hevs hs
  obtain ⟨s2, h1, h2⟩ := press_outputs hx hnx hlen (pick_base (use_off (hh.off hl) x) hone (by rw [use_dflt]; exact hd))
  obtain ⟨km, k1, k2, _⟩ := C29_polled (S := S) (n := n) hp es hev ht (s := s2) (by
    rw [hes, inputs_append_o, hs, Option.bind_some]
    rw [show ([.release j, .press x] : List InputEvent) = [.release j] ++ [.press x] from rfl, inputs_append_o]
    rw [show s'.inputs layout [.release j] = some (s'.release j) from rfl, Option.bind_some, osnoc_press, h1])
  exact ⟨km, k1, by rw [k2, h2]⟩

end

/-! ## Example -/

namespace ODemo

/-- Sticky layer keys of layers 1 and 2 and three keys with layers. -/
def K : Keys where
  layerMods := [.sticky 1, .sticky 2]
  layered := [⟨.keyboard (.keyCode 4), [some (.keyboard (.keyCode 0x1E)), none]⟩, ⟨.keyboard (.keyCode 5), [some (.keyboard (.keyCode 0x1F)), none]⟩,
    ⟨.keyboard (.keyCode 6), [none, some (.keyboard (.keyCode 0x20))]⟩]

def refs : List Ref := [.layered (.modifier 0), .layered (.modifier 1), .layered (.layered 0), .layered (.layered 1), .layered (.layered 2)]

def config : Config where
  automation := ⟨[], 0⟩
  chorded := ⟨200, [], none, 0, 0⟩
  sticky := .onModifiedKeyRelease
  tapDance := ⟨200⟩
  tapHold := ⟨200, .ignore, none⟩
  layerCount := 2
  maxChords := 0

def key (k : Byte) : Act := .cell (.out (KeyOutput.fromKeyCode k))

def layout : List Pos :=
  [.act (.oneShot 1), .act (.oneShot 2), .layered (key 4) [some (key 0x1E), none], .layered (key 5) [some (key 0x1F), none],
   .layered (key 6) [none, some (key 0x20)]]

theorem oneShots : OneShots K refs config layout where
  layoutEq := by decide +kernel
  fits := by
    intro e he
    simp only [layout, List.mem_cons, List.not_mem_nil, or_false] at he
    rcases he with rfl | rfl | rfl | rfl | rfl <;>
      simp [Pos.Fits, Act.Fits, Board.Cell.Fits, config, key]
  size := by decide
  chords := .inl rfl

/-- After typing a letter that is still held, the first sticky layer key can be pressed. -/
theorem ready : OnceReady config layout [.press 4] ⟨[(4, key 6)], [.off, .off], none, none⟩ 0 1 where
  history := by decide +kernel
  key := ⟨_, rfl, rfl⟩
  free := rfl
  once := rfl
  shots := by
    intro i l' h
    simp [key] at h
  others := by
    intro p h
    have : p = (4, key 6) := by simpa using h
    subst this
    rfl
  few := by decide

/-- The next key is that of the layer, although the letter held before is released meanwhile. -/
example : ∃ km, run ⟨system K, refs, Search.std⟩ 18 (KM.new (Ctx.fromConfig config))
      ((paced [(.press 4, 0), (.press 0, 0), (.release 0, 3), (.release 4, 1), (.press 2, 7)]).map toOp) = .ok km ∧
    km.pressedKeys ⟨system K, refs, Search.std⟩ = .ok [KeyOutput.fromKeyCode 0x1E] :=
  C29_next_key (S := Search.std) (n := 0) oneShots ready [4] (k := 2) rfl rfl rfl _ (by decide) (by decide) rfl

/-- Then the layer is off. -/
example : ∃ km, run ⟨system K, refs, Search.std⟩ 18 (KM.new (Ctx.fromConfig config))
      ((paced [(.press 4, 0), (.press 0, 0), (.release 0, 3), (.press 2, 7), (.release 4, 1), (.release 2, 0), (.press 3, 0)]).map toOp) = .ok km ∧
    km.pressedKeys ⟨system K, refs, Search.std⟩ = .ok [KeyOutput.fromKeyCode 5] :=
  C29_key_after (S := Search.std) (n := 0) oneShots ready [] [4] (k := 2) (x := 3) rfl rfl rfl (by decide) rfl rfl rfl _ (by decide) (by decide) rfl

/-- Also when the second key is pressed before the first is released. -/
example : ∃ km, run ⟨system K, refs, Search.std⟩ 18 (KM.new (Ctx.fromConfig config))
      ((paced [(.press 4, 0), (.press 0, 0), (.release 0, 3), (.press 2, 7), (.press 3, 0)]).map toOp) = .ok km ∧
    km.pressedKeys ⟨system K, refs, Search.std⟩ = .ok [KeyOutput.fromKeyCode 6, KeyOutput.fromKeyCode 0x1E, KeyOutput.fromKeyCode 5] :=
  C29_second_key (S := Search.std) (n := 0) oneShots ready [] [] (k := 2) (x := 3) rfl rfl rfl (by decide) rfl rfl (by decide) rfl _
    (by decide) (by decide) rfl

theorem spares : ∀ (x : Nat) p, layout[x]? = some p → x ≠ 0 → p.Spares 1 := by
  intro x p hx h0
  rcases x with _ | _ | _ | _ | _ | x
  · exact absurd rfl h0
  all_goals
    first
    | (cases hx; simp [Pos.Spares, Act.touches, key])
    | simp [layout] at hx

/-- The key is held: two keys of the layer, one after the other; then the base key. -/
example : ∃ km, run ⟨system K, refs, Search.std⟩ 18 (KM.new (Ctx.fromConfig config))
      ((paced [(.press 4, 0), (.press 0, 0), (.press 2, 7), (.release 2, 1), (.press 3, 0)]).map toOp) = .ok km ∧
    km.pressedKeys ⟨system K, refs, Search.std⟩ = .ok [KeyOutput.fromKeyCode 6, KeyOutput.fromKeyCode 0x1F] :=
  C29_hold (S := Search.std) (n := 0) oneShots ready spares (rs := []) (by decide) (k := 2) (evs := [.release 2]) (by decide)
    (s' := ⟨[(4, key 6), (0, .cell (.hold 1))], [.on, .off], none, some 2⟩) (by decide +kernel) (x := 3) rfl rfl (by decide) rfl
    (by
      intro m a hm
      rcases m with _ | _ | m
      · exact Nat.le_refl _
      · simp at hm
      · simp at hm) _ (by decide) (by decide) rfl

example : ∃ km, run ⟨system K, refs, Search.std⟩ 18 (KM.new (Ctx.fromConfig config))
      ((paced [(.press 4, 0), (.press 0, 0), (.press 2, 7), (.release 2, 1), (.release 0, 0), (.press 3, 0)]).map toOp) = .ok km ∧
    km.pressedKeys ⟨system K, refs, Search.std⟩ = .ok [KeyOutput.fromKeyCode 6, KeyOutput.fromKeyCode 5] :=
  C29_hold_released (S := Search.std) (n := 0) oneShots ready spares (rs := []) (by decide) (k := 2) (evs := [.release 2]) (by decide)
    (s' := ⟨[(4, key 6), (0, .cell (.hold 1))], [.on, .off], none, some 2⟩) (by decide +kernel) (x := 3) rfl rfl (by decide)
    (by
      intro m a hm
      rcases m with _ | _ | m
      · rfl
      · simp at hm
      · simp at hm) (by intro d hd; cases hd) _ (by decide) (by decide) rfl

end ODemo

end Verif.Comp
