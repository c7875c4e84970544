import Verif.Props.Rtic

/-!
# C89: the Rust firmwares, from the switches to the reports
-/

namespace Verif.Rtic

open Verif.Board (Queued Entry Cell)
open Verif.Keyboard (Follows start follows_new keymapTick_ok qinv simq_rep report_same Taken Has Proper HeldOk heldOk_foldl heldOk_start input_holds)

/-! ## Events -/

section

variable {R Ev Ctx PKS KS : Type} {C : Cfg R Ev Ctx PKS KS} {n : Nat} {indices : List (List (Option Nat))}

theorem at_entry {r c : Nat} {x : Option Nat} (h : Backend.at' indices r c = .ok x) : entry indices r c = some x := by
  unfold Backend.at' at h
  unfold entry
  split at h
  · next row hr =>
    rw [hr]
    split at h
    · next y hy => cases h; exact hy
    · cases h
  · cases h

theorem keyEvent_of {e : Backend.Event} {o : Option InputEvent} (h : Backend.keymapIndexOf indices e = .ok o) : keyEvent indices e = o := by
  cases e with
  | press r c =>
    obtain ⟨i, h1, h2⟩ := Res.bind_eq_ok.1 h
    cases h2
    rw [keyEvent, at_entry h1]; rfl
  | release r c =>
    obtain ⟨i, h1, h2⟩ := Res.bind_eq_ok.1 h
    cases h2
    rw [keyEvent, at_entry h1]; rfl

theorem feed_register {es : List Backend.Event} : ∀ {b b' : Backend.Keyboard R Ev Ctx PKS KS}, feed C n indices b es = .ok b' →
    Device.register C n b.km (es.filterMap (keyEvent indices)) = .ok b'.km := by
  induction es with
  | nil => intro b b' h; cases h; rfl
  | cons e es ih =>
    intro b b' h
    obtain ⟨ie, h1, h⟩ := Res.bind_eq_ok.1 h
    rw [List.filterMap_cons, keyEvent_of h1]
    cases ie with
    | none => exact ih h
    | some ie =>
      obtain ⟨b1, h2, h⟩ := Res.bind_eq_ok.1 h
      obtain ⟨km, h4, h3⟩ := Res.bind_eq_ok.1 h2
      cases h3
      exact Res.bind_eq_ok.2 ⟨km, h4, ih h⟩

theorem keyEvent_physical {e : Backend.Event} {ie : InputEvent} (h : keyEvent indices e = some ie) : Comp.isPhysical ie = true := by
  cases e with
  | press r c => obtain ⟨i, _, rfl⟩ := Option.map_eq_some_iff.1 h; rfl
  | release r c => obtain ⟨i, _, rfl⟩ := Option.map_eq_some_iff.1 h; rfl

theorem backendTick_ok {b b' : Backend.Keyboard R Ev Ctx PKS KS} {ch : Bool} (h : b.tick C n = .ok (b', ch)) :
    ∃ km1 os, tick C n b.km = .ok km1 ∧ km1.pressedKeys C = .ok os ∧ b'.km = { km1 with rep := (km1.rep.report os).1 } ∧ b'.out = (km1.rep.report os).2 := by
  unfold Backend.Keyboard.tick at h
  obtain ⟨km1, h1, h⟩ := Res.bind_eq_ok.1 h
  obtain ⟨⟨km2, out⟩, h2, h⟩ := Res.bind_eq_ok.1 h
  cases h
  unfold reportOutput at h2
  obtain ⟨os, h4, h2⟩ := Res.bind_eq_ok.1 h2
  cases h2
  exact ⟨km1, os, h1, h4, rfl, rfl⟩

theorem keyboardEvents_ok {d d' : Debouncer} {raw : Levels} {es : List Backend.Event} (h : keyboardEvents d raw = .ok (d', es)) : d.events raw = (d', es) := by
  unfold keyboardEvents at h
  generalize d.events raw = p at h
  obtain ⟨d1, e1⟩ := p
  simp only at h
  split at h
  · cases h; rfl
  · cases h

end

abbrev CCore := Core Comp.Ref Comp.Ev Comp.Ctx Comp.PKS Comp.KS

abbrev CBoard := Board Comp.Ref Comp.Ev Comp.Ctx Comp.PKS Comp.KS

/-- One turn after the other. -/
def Core.run {R Ev Ctx PKS KS : Type} (C : Cfg R Ev Ctx PKS KS) (n : Nat) (indices : List (List (Option Nat))) (s : Core R Ev Ctx PKS KS) :
    List (Levels × Bool) → Res (Core R Ev Ctx PKS KS)
  | [] => .ok s
  | x :: xs => do
    let s ← s.turn C n indices x
    Core.run C n indices s xs

section

variable {K : Comp.Keys} {refs : List Comp.Ref} {S : Search} {layout : List Entry} {n : Nat} {indices : List (List (Option Nat))}

/-- A turn. -/
theorem follows_step {c : Comp.Config} (hp : Comp.Plain K refs c layout) {s s' : CCore} {t : Nat} {q : Queued} {evs : List InputEvent} {x : Levels × Bool}
    (h : Follows K layout c.layerCount (start c) s.backend.km t q evs) (ht : t + 1 < u32Size)
    (hl : s.backend.km.inq.length + (s.deb.events x.1).2.length ≤ 31)
    (hr : s.turn ⟨Comp.system K, refs, S⟩ (n + 2) indices x = .ok s') :
    ∃ t' q1 q', t' ≤ t + 1 ∧ Follows K layout c.layerCount (start c) s'.backend.km t' q' (evs ++ (s.deb.events x.1).2.filterMap (keyEvent indices)) ∧
      q1.queue.length ≤ 31 ∧ q1.delay ≤ 1 ∧ ((s.deb.events x.1).2 = [] → q1 = q) ∧ s'.deb = (s.deb.events x.1).1 ∧
      s'.success = x.2 ∧
      ((s.success = true ∧ q1.tick layout = some q' ∧ s'.backend.km.rep = (s.backend.km.rep.report q'.board.outputs).1 ∧
          s'.backend.out = (s.backend.km.rep.report q'.board.outputs).2 ∧ s'.made.getLast? = some s'.backend.out) ∨
        (s.success = false ∧ q' = q1)) := by
  obtain ⟨s1, g1, g2⟩ := Res.bind_eq_ok.1 hr
  cases g2
  obtain ⟨deb, es, b, k1, k2, k3⟩ := coreScan_ok g1
  have hev := keyboardEvents_ok k1
  rw [hev] at hl ⊢
  have hreg := feed_register k2
  have hfl : (es.filterMap (keyEvent indices)).length ≤ es.length := List.length_filterMap_le _ _
  obtain ⟨q1, f1, f2, f3⟩ := h.register (es := es.filterMap (keyEvent indices)) hp
    (fun e he => by obtain ⟨x, _, hx⟩ := List.mem_filterMap.1 he; exact keyEvent_physical hx) (by rw [← h.sim.inq]; simp only at hl; omega) hreg
  have hnil : es = [] → q1 = q := fun he => f3 (by rw [he]; rfl)
  rcases k3 with ⟨a1, b', ch, a2, rfl⟩ | ⟨a1, rfl⟩
  · obtain ⟨km1, os, b1, b2, b3, b4⟩ := backendTick_ok a2
    have key := f1.sim.tick (S := S) (n := n) hp.layoutEq hp.fits hp.size ht
    cases hm : q1.tick layout with
    | none =>
      obtain ⟨p, hp'⟩ := key.2 hm
      rw [b1] at hp'; cases hp'
    | some q' =>
      obtain ⟨km2, j1, j2⟩ := key.1 q' hm
      rw [b1] at j1; cases j1
      have hos : km1.pressedKeys ⟨Comp.system K, refs, S⟩ = .ok q'.board.outputs := Comp.pressedOutputs_held j2.sim.held
      rw [b2] at hos; cases hos
      have hrep := (tick_clock (qinv f1.sim) b1).2.2.2.1
      obtain ⟨t1, t2, t3, t4, t5⟩ := f1.taken.tick f1.delay hm
      refine ⟨t + 1, q1, q', Nat.le_refl _, ⟨?_, t1, ?_, by omega, ?_⟩, f1.room, f1.delay, hnil, rfl, rfl, .inl ⟨a1, hm, ?_, ?_, by simp⟩⟩
      · show Comp.SimQ _ _ _ b'.km _
        rw [b3]; exact simq_rep j2 _
      · have := f1.room; omega
      · show 1 ≤ b'.km.rep.num
        rw [b3]; simp only; rw [hrep, f2]
        exact Reporter.reportSent_pos _ (Reporter.update_pos _ _ h.rep)
      · show b'.km.rep = _
        rw [b3]; simp only; rw [hrep, f2]
      · show b'.out = _
        rw [b4, hrep, f2]
  · exact ⟨t, q1, q1, by omega, f1, f1.room, f1.delay, hnil, rfl, rfl, .inr ⟨a1, rfl⟩⟩

theorem scans_append (d : Debouncer) (xs ys : List Levels) :
    scans d (xs ++ ys) = ((scans (scans d xs).1 ys).1, (scans d xs).2 ++ (scans (scans d xs).1 ys).2) := by
  induction xs generalizing d with
  | nil => rfl
  | cons x xs ih => simp only [List.cons_append, scans, ih]

theorem scans_one (d : Debouncer) (raw : Levels) : scans d [raw] = ((d.events raw).1, [(d.events raw).2]) := rfl

/-- The debouncer after these scans. -/
abbrev debounced (rows cols : Nat) (raws : List Levels) : Debouncer := (scans ⟨allOpen rows cols, allOpen rows cols, 0⟩ raws).1

theorem debounced_snoc (rows cols : Nat) (raws : List Levels) (raw : Levels) :
    debounced rows cols (raws ++ [raw]) = ((debounced rows cols raws).events raw).1 := by
  rw [debounced, scans_append, scans_one]

theorem moves_snoc (rows cols : Nat) (raws : List Levels) (raw : Levels) :
    moves rows cols indices (raws ++ [raw]) = moves rows cols indices raws ++ ((debounced rows cols raws).events raw).2.filterMap (keyEvent indices) := by
  rw [moves, scans_append, scans_one]
  simp [moves]

theorem roomy_append {R Ev Ctx PKS KS : Type} {C : Cfg R Ev Ctx PKS KS} {n : Nat} {s s1 : Core R Ev Ctx PKS KS} {xs ys : List (Levels × Bool)}
    (h1 : s.run C n indices xs = .ok s1) (h : Roomy C n indices s (xs ++ ys)) : Roomy C n indices s xs ∧ Roomy C n indices s1 ys := by
  induction xs generalizing s with
  | nil => cases h1; exact ⟨trivial, h⟩
  | cons e es ih =>
    obtain ⟨d', g1, g2⟩ := Res.bind_eq_ok.1 h1
    refine ⟨⟨h.1, fun d'' hd => ?_⟩, (ih g2 (h.2 d' g1)).2⟩
    rw [g1] at hd; cases hd
    exact (ih g2 (h.2 d' g1)).1

theorem coreRun_split {R Ev Ctx PKS KS : Type} {C : Cfg R Ev Ctx PKS KS} {n : Nat} {s s2 : Core R Ev Ctx PKS KS} {xs ys : List (Levels × Bool)}
    (h : s.run C n indices (xs ++ ys) = .ok s2) : ∃ s1, s.run C n indices xs = .ok s1 ∧ s1.run C n indices ys = .ok s2 := by
  induction xs generalizing s with
  | nil => exact ⟨s, rfl, h⟩
  | cons x xs ih =>
    obtain ⟨d', g1, g2⟩ := Res.bind_eq_ok.1 h
    obtain ⟨s1, k1, k2⟩ := ih g2
    exact ⟨s1, Res.bind_eq_ok.2 ⟨d', g1, k1⟩, k2⟩

/-- The board at power on. -/
abbrev fresh (rows cols : Nat) (c : Comp.Config) : CBoard := Board.new rows cols (KM.new (Comp.Ctx.fromConfig c))

theorem scans_still {rows cols : Nat} {raws : List Levels} {raw : Levels} {k : Nat} (hk : 26 ≤ k) :
    (debounced rows cols (raws ++ List.replicate k raw)).cur = raw ∧ ((debounced rows cols (raws ++ List.replicate k raw)).events raw).2 = [] := by
  have h1 : (debounced rows cols (raws ++ List.replicate k raw)).cur = raw := by
    rw [debounced, C88_debounced, List.reverse_append, List.reverse_replicate]
    obtain ⟨j, rfl⟩ : ∃ j, k = j + 1 := ⟨k - 1, by omega⟩
    rw [List.replicate_succ, List.cons_append, stable, if_pos]
    rw [← List.cons_append, ← List.replicate_succ, List.take_append_of_le_length (by simpa using hk), List.take_replicate, Nat.min_eq_left hk]
  refine ⟨h1, ?_⟩
  rw [Debouncer.events, Debouncer.update, if_pos h1]
  rfl

/-- `k` milliseconds in which the switches do not move and keyboard reports do not wait. -/
structure Stage (K : Comp.Keys) (layout : List Entry) (c : Comp.Config) (rows cols : Nat) (indices : List (List (Option Nat))) (raws : List Levels) (raw : Levels)
    (k : Nat) (s : CCore) (t : Nat) (m : Queued) : Prop where
  follows : Follows K layout c.layerCount (start c) s.backend.km t m (moves rows cols indices (raws ++ List.replicate k raw))
  time : t ≤ raws.length + k
  deb : s.deb = debounced rows cols (raws ++ List.replicate k raw)
  success : 1 ≤ k → s.success = true
  delay : 2 ≤ k → m.delay = 0
  queue : 27 ≤ k → m.queue.length ≤ 58 - k
  rep : 59 ≤ k → s.backend.km.rep.outputs = m.board.outputs ∧ min m.board.outputs.length (k - 58) ≤ s.backend.km.rep.num
  out : 2 ≤ k → s.backend.out = s.backend.km.rep.reportable ∧ s.made.getLast? = some s.backend.out

theorem follows_run {c : Comp.Config} (hp : Comp.Plain K refs c layout) {rows cols : Nat} {ms : List (Levels × Bool)} : ∀ {raws : List Levels} {s s' : CCore} {t : Nat} {m : Queued},
    Follows K layout c.layerCount (start c) s.backend.km t m (moves rows cols indices raws) → s.deb = debounced rows cols raws → t + ms.length < u32Size →
    Roomy ⟨Comp.system K, refs, S⟩ (n + 2) indices s ms → s.run ⟨Comp.system K, refs, S⟩ (n + 2) indices ms = .ok s' →
    ∃ t' m', t' ≤ t + ms.length ∧ Follows K layout c.layerCount (start c) s'.backend.km t' m' (moves rows cols indices (raws ++ ms.map (·.1))) ∧
      s'.deb = debounced rows cols (raws ++ ms.map (·.1)) := by
  induction ms with
  | nil => intro raws s s' t m h hd _ _ hr; cases hr; exact ⟨t, m, Nat.le_refl _, by simpa using h, by simpa using hd⟩
  | cons e es ih =>
    intro raws s s' t m h hd ht hro hr
    simp only [List.length_cons] at ht ⊢
    obtain ⟨s1, g1, g2⟩ := Res.bind_eq_ok.1 hr
    obtain ⟨t1, q1, q2, f1, f2, _, _, _, f3, _⟩ := follows_step hp h (by omega) hro.1 g1
    rw [hd] at f2 f3
    rw [← moves_snoc] at f2
    rw [← debounced_snoc] at f3
    obtain ⟨t', m', k1, k2, k3⟩ := ih f2 f3 (by omega) (hro.2 s1 g1) g2
    refine ⟨t', m', by omega, ?_, ?_⟩
    · simpa using k2
    · simpa using k3

theorem stage {c : Comp.Config} (hp : Comp.Plain K refs c layout) {rows cols : Nat} {ms : List (Levels × Bool)} {raw : Levels} : ∀ (k : Nat) {still : List (Levels × Bool)} {s : CCore},
    still.length = k → (∀ m ∈ still, m.1 = raw ∧ m.2 = true) → ms.length + k < u32Size →
    (Core.new rows cols (KM.new (Comp.Ctx.fromConfig c))).run ⟨Comp.system K, refs, S⟩ (n + 2) indices (ms ++ still) = .ok s →
    Roomy ⟨Comp.system K, refs, S⟩ (n + 2) indices (Core.new rows cols (KM.new (Comp.Ctx.fromConfig c))) (ms ++ still) →
    ∃ t m, Stage K layout c rows cols indices (ms.map (·.1)) raw k s t m := by
  intro k
  induction k with
  | zero =>
    intro still s hk _ hlen hrun hro
    obtain rfl := List.length_eq_zero_iff.1 hk
    rw [List.append_nil] at hrun hro
    obtain ⟨t', m', f1, f2, f3⟩ := follows_run (S := S) (n := n) (rows := rows) (cols := cols) hp (raws := []) (s := Core.new rows cols (KM.new (Comp.Ctx.fromConfig c))) (follows_new hp) rfl (by omega) hro hrun
    refine ⟨t', m', ?_, by simpa using f1, ?_, ?_, ?_, ?_, ?_, ?_⟩
    · simpa using f2
    · simpa using f3
    all_goals intro h; omega
  | succ k ih =>
    intro still s hk hst hlen hrun hro
    obtain ⟨still', x, rfl⟩ : ∃ ys x, still = ys ++ [x] := by
      have hne : still ≠ [] := by intro he; rw [he] at hk; cases hk
      exact ⟨_, _, (List.dropLast_concat_getLast hne).symm⟩
    rw [← List.append_assoc] at hrun hro
    obtain ⟨s1, r1, r2⟩ := coreRun_split hrun
    obtain ⟨ro1, ro2⟩ := roomy_append r1 hro
    obtain ⟨t, m, st⟩ := ih (by simpa using hk) (fun m hm => hst m (by simp [hm])) (by omega) r1 ro1
    obtain ⟨s2, u1, u2⟩ := Res.bind_eq_ok.1 r2
    cases u2
    obtain ⟨hx1, hx2⟩ := hst x (by simp)
    have ht := st.time
    simp only [List.length_map] at ht
    obtain ⟨t', m1, m2, f1, f2, f3, f4, f5, f6, f7, f8⟩ := follows_step hp st.follows (by omega) ro2.1 u1
    rw [hx1, st.deb] at f2 f5 f6
    rw [← moves_snoc, List.append_assoc, ← List.replicate_succ'] at f2
    rw [← debounced_snoc, List.append_assoc, ← List.replicate_succ'] at f6
    have hnone : 26 ≤ k → m1 = m := fun hk => f5 (scans_still hk).2
    have htick : 1 ≤ k → m1.tick layout = some m2 ∧ s.backend.km.rep = (s1.backend.km.rep.report m2.board.outputs).1 ∧
          s.backend.out = (s1.backend.km.rep.report m2.board.outputs).2 ∧ s.made.getLast? = some s.backend.out := fun hk => by
      rcases f8 with f8 | f8
      · exact f8.2
      · rw [st.success hk] at f8; cases f8.1
    refine ⟨t', m2, f2, by simp only [List.length_map]; omega, f6, fun _ => by rw [f7]; exact hx2, fun hk => ?_, fun hk => ?_, fun hk => ?_, fun hk => ?_⟩
    · obtain ⟨a1, _⟩ := htick (by omega)
      exact (Taken.tick (b := m1.board) (evs := m1.queue) ⟨[], rfl, rfl⟩ f4 a1).2.1
    · obtain ⟨a1, _⟩ := htick (by omega)
      have hq := Taken.tick (b := m1.board) (evs := m1.queue) ⟨[], rfl, rfl⟩ f4 a1
      by_cases h6 : k = 26
      · omega
      · have := hnone (by omega)
        subst this
        have h7 := st.queue (by omega)
        have h8 := hq.2.2.2.1 (st.delay (by omega))
        omega
    · obtain ⟨a1, a2, a3, _⟩ := htick (by omega)
      have := hnone (by omega)
      subst this
      have h7 := st.queue (by omega)
      have hq0 : m1.queue = [] := List.length_eq_zero_iff.1 (by omega)
      obtain ⟨_, hb⟩ := (Taken.tick (b := m1.board) (evs := m1.queue) ⟨[], rfl, rfl⟩ f4 a1).2.2.2.2 hq0
      obtain ⟨p1, p2, p3, p4⟩ := report_same s1.backend.km.rep st.follows.rep m2.board.outputs
      rw [a2]
      refine ⟨p1, ?_⟩
      by_cases h39 : 59 ≤ k
      · obtain ⟨q1, q2⟩ := st.rep h39
        have := p4 (by rw [q1, hb])
        rw [← hb] at q2
        omega
      · omega
    · obtain ⟨a1, a2, a3, a4⟩ := htick (by omega)
      obtain ⟨p1, p2, p3, p4⟩ := report_same s1.backend.km.rep st.follows.rep m2.board.outputs
      exact ⟨by rw [a3, a2, p3], a4⟩

/-! ## Held keys -/

/-- The keys the board holds are those whose levels are closed. -/
def HeldBy (indices : List (List (Option Nat))) (b : Board.State) (m : Levels) : Prop :=
  ∀ i, b.holds i = true ↔ ∃ r c, KeyAt indices r c i ∧ entry m r c = some true

theorem fold_holds {rows cols : Nat} (hl : Laid rows cols layout.length indices) : ∀ (es : List Backend.Event) (b : Board.State),
    es.Pairwise (fun a b => Before (place a) (place b)) → ∀ i, ((es.filterMap (keyEvent indices)).foldl (Board.State.input layout) b).holds i = true ↔
      (∃ r c, KeyAt indices r c i ∧ .press r c ∈ es) ∨ (b.holds i = true ∧ ¬ ∃ r c, KeyAt indices r c i ∧ .release r c ∈ es)
  | [], b, _, i => by simp
  | e :: es, b, hp, i => by
    obtain ⟨hp1, hp2⟩ := List.pairwise_cons.1 hp
    have ih := fold_holds hl es
    have hfresh : ∀ f ∈ es, place f ≠ place e := by
      intro f hf he
      have := hp1 f hf
      rw [he] at this
      rcases this with h | h <;> omega
    -- the event is of key `i`, or not
    by_cases hk : KeyAt indices (place e).1 (place e).2 i
    · have hno : ∀ r c, KeyAt indices r c i → .press r c ∉ es ∧ .release r c ∉ es := by
        intro r c hrc
        obtain ⟨rfl, rfl⟩ := hl.different _ _ _ _ _ hrc hk
        exact ⟨fun hm => hfresh _ hm rfl, fun hm => hfresh _ hm rfl⟩
      have hi := hl.within _ _ _ hk
      cases e with
      | press r c =>
        have hev : keyEvent indices (.press r c) = some (Firmware.stateChanged i true) := by
          rw [keyEvent, show entry indices r c = some (some i) from hk]; rfl
        rw [List.filterMap_cons, hev]
        simp only [List.foldl_cons]
        rw [ih _ hp2, input_holds b hi true i, if_pos rfl]
        constructor
        · intro _; exact .inl ⟨r, c, hk, by simp⟩
        · intro _
          refine .inr ⟨rfl, ?_⟩
          rintro ⟨r', c', a1, a2⟩
          exact (hno r' c' a1).2 a2
      | release r c =>
        have hev : keyEvent indices (.release r c) = some (Firmware.stateChanged i false) := by
          rw [keyEvent, show entry indices r c = some (some i) from hk]; rfl
        rw [List.filterMap_cons, hev]
        simp only [List.foldl_cons]
        rw [ih _ hp2, input_holds b hi false i, if_pos rfl]
        constructor
        · rintro (⟨r', c', a1, a2⟩ | ⟨a1, _⟩)
          · exact absurd a2 (hno r' c' a1).1
          · cases a1
        · rintro (⟨r', c', a1, a2⟩ | ⟨_, a2⟩)
          · rcases List.mem_cons.1 a2 with a2 | a2
            · cases a2
            · exact absurd a2 (hno r' c' a1).1
          · exact absurd ⟨r, c, hk, by simp⟩ a2
    · have hsame : ∀ b' : Board.State, b' = ((keyEvent indices e).toList).foldl (Board.State.input layout) b → b'.holds i = b.holds i := by
        rintro b' rfl
        cases hev : keyEvent indices e with
        | none => rfl
        | some ie =>
          obtain ⟨j, st, hj, rfl⟩ : ∃ j st, KeyAt indices (place e).1 (place e).2 j ∧ ie = Firmware.stateChanged j st := by
            cases e with
            | press r c =>
              obtain ⟨j, a1, rfl⟩ := Option.map_eq_some_iff.1 hev
              exact ⟨j, true, Option.join_eq_some_iff.1 a1, rfl⟩
            | release r c =>
              obtain ⟨j, a1, rfl⟩ := Option.map_eq_some_iff.1 hev
              exact ⟨j, false, Option.join_eq_some_iff.1 a1, rfl⟩
          simp only [Option.toList_some, List.foldl_cons, List.foldl_nil]
          rw [input_holds b (hl.within _ _ _ hj) st i, if_neg]
          rintro rfl
          exact hk hj
      have hfm : (e :: es).filterMap (keyEvent indices) = (keyEvent indices e).toList ++ es.filterMap (keyEvent indices) := by
        rw [List.filterMap_cons]
        cases keyEvent indices e <;> rfl
      rw [hfm, List.foldl_append, ih _ hp2, hsame _ rfl]
      have hpr : ∀ f : Nat → Nat → Backend.Event, (∀ r c, place (f r c) = (r, c)) → ((∃ r c, KeyAt indices r c i ∧ f r c ∈ e :: es) ↔ ∃ r c, KeyAt indices r c i ∧ f r c ∈ es) := by
        intro f hf
        constructor
        · rintro ⟨r, c, a1, a2⟩
          rcases List.mem_cons.1 a2 with a2 | a2
          · rw [← a2, hf] at hk; exact absurd a1 hk
          · exact ⟨r, c, a1, a2⟩
        · rintro ⟨r, c, a1, a2⟩; exact ⟨r, c, a1, by simp [a2]⟩
      rw [hpr .press (fun _ _ => rfl), hpr .release (fun _ _ => rfl)]

theorem entry_some {α β : Type} {rows cols : Nat} {m : List (List α)} {m' : List (List β)} (h : Size rows cols m) (h' : Size rows cols m') {r c : Nat} {b : α} (he : entry m r c = some b) :
    ∃ b', entry m' r c = some b' := by
  unfold entry at he ⊢
  obtain ⟨row, h1, h2⟩ := Option.bind_eq_some_iff.1 he
  obtain ⟨l1, rfl⟩ := List.getElem?_eq_some_iff.1 h1
  obtain ⟨l2, _⟩ := List.getElem?_eq_some_iff.1 h2
  have e1 := h.2 _ (List.getElem_mem l1)
  have l1' : r < m'.length := by rw [h'.1, ← h.1]; exact l1
  have e2 := h'.2 _ (List.getElem_mem l1')
  rw [List.getElem?_eq_getElem l1', Option.bind_some]
  exact ⟨_, List.getElem?_eq_getElem (by omega)⟩

theorem stable_size {rows cols : Nat} {z : Levels} (hz : Size rows cols z) : ∀ h : List Levels, (∀ m ∈ h, Size rows cols m) → Size rows cols (stable z h)
  | [], _ => hz
  | x :: h, hx => by
    rw [stable]
    split
    · exact hx x (by simp)
    · exact stable_size hz h fun m hm => hx m (by simp [hm])

theorem allOpen_size (rows cols : Nat) : Size rows cols (allOpen rows cols) :=
  ⟨by simp, fun r hr => by rw [List.eq_of_mem_replicate hr]; simp⟩

theorem allOpen_entry (rows cols r c : Nat) : entry (allOpen rows cols) r c ≠ some true := by
  intro h
  unfold entry at h
  obtain ⟨row, h1, h2⟩ := Option.bind_eq_some_iff.1 h
  have := List.eq_of_mem_replicate (List.mem_of_getElem? h1)
  subst this
  have := List.eq_of_mem_replicate (List.mem_of_getElem? h2)
  cases this

theorem held_moves {rows cols : Nat} (hl : Laid rows cols layout.length indices) (c : Comp.Config) (k : Nat) : ∀ (raws : List Levels), raws.length = k →
    (∀ m ∈ raws, Size rows cols m) →
    HeldBy indices ((moves rows cols indices raws).foldl (Board.State.input layout) (start c)) (stable (allOpen rows cols) raws.reverse) := by
  induction k with
  | zero =>
    intro raws hk _ i
    obtain rfl := List.length_eq_zero_iff.1 hk
    constructor
    · intro h; cases h
    · rintro ⟨r, c, _, h⟩; exact absurd h (allOpen_entry _ _ _ _)
  | succ k ih =>
    intro raws hk hs i
    obtain ⟨ys, x, rfl⟩ : ∃ ys x, raws = ys ++ [x] := by
      have hne : raws ≠ [] := by intro he; rw [he] at hk; cases hk
      exact ⟨_, _, (List.dropLast_concat_getLast hne).symm⟩
    have hys : ∀ m ∈ ys, Size rows cols m := fun m hm => hs m (by simp [hm])
    have hx : Size rows cols x := hs x (by simp)
    have h0 := ih ys (by simpa using hk) hys
    obtain ⟨e1, e2, e3⟩ := C88_events (allOpen_size rows cols) ys x hys hx rfl rfl rfl
    have s1 := stable_size (allOpen_size rows cols) ys.reverse fun m hm => hys m (by simpa using hm)
    have s2 := stable_size (allOpen_size rows cols) (x :: ys.reverse) fun m hm => by
      rcases List.mem_cons.1 hm with rfl | hm
      · exact hx
      · exact hys m (by simpa using hm)
    rw [moves_snoc, List.foldl_append, List.reverse_append]
    simp only [List.reverse_singleton, List.singleton_append]
    rw [fold_holds hl _ _ e3 i, h0 i]
    constructor
    · rintro (⟨r, c, a1, a2⟩ | ⟨⟨r, c, a1, a2⟩, a3⟩)
      · exact ⟨r, c, a1, ((e1 r c).1 a2).2⟩
      · refine ⟨r, c, a1, ?_⟩
        obtain ⟨b, hb⟩ := entry_some s1 s2 a2
        cases b with
        | true => exact hb
        | false => exact absurd ⟨r, c, a1, (e2 r c).2 ⟨a2, hb⟩⟩ a3
    · rintro ⟨r, c, a1, a2⟩
      obtain ⟨b, hb⟩ := entry_some s2 s1 a2
      cases b with
      | false => exact .inl ⟨r, c, a1, (e1 r c).2 ⟨hb, a2⟩⟩
      | true =>
        refine .inr ⟨⟨r, c, a1, hb⟩, ?_⟩
        rintro ⟨r', c', b1, b2⟩
        obtain ⟨rfl, rfl⟩ := hl.different _ _ _ _ _ b1 a1
        have := ((e2 _ _).1 b2).2
        rw [a2] at this; cases this

/-- At rest. -/
theorem at_rest {c : Comp.Config} (hp : Comp.Plain K refs c layout) {rows cols : Nat} (hl : Laid rows cols layout.length indices) {ms still : List (Levels × Bool)}
    {raw : Levels} {s : CCore} (hlong : 80 ≤ still.length) (hms : ∀ m ∈ ms, Size rows cols m.1) (hsize : Size rows cols raw)
    (hst : ∀ m ∈ still, m.1 = raw ∧ m.2 = true) (ht : ms.length + still.length < u32Size)
    (hrun : (Core.new rows cols (KM.new (Comp.Ctx.fromConfig c))).run ⟨Comp.system K, refs, S⟩ (n + 2) indices (ms ++ still) = .ok s)
    (hro : Roomy ⟨Comp.system K, refs, S⟩ (n + 2) indices (Core.new rows cols (KM.new (Comp.Ctx.fromConfig c))) (ms ++ still)) :
    ∃ b : Board.State, b = (moves rows cols indices (ms.map (·.1) ++ List.replicate still.length raw)).foldl (Board.State.input layout) (start c) ∧
      b.outputs.length ≤ 16 ∧ s.backend.out = b.outputs ∧ s.made.getLast? = some s.backend.out ∧ s.success = true ∧
      ∀ i, b.holds i = true ↔ ∃ r c, KeyAt indices r c i ∧ entry raw r c = some true := by
  obtain ⟨t, m, st⟩ := stage hp still.length rfl hst ht hrun hro
  have hq : m.queue = [] := List.length_eq_zero_iff.1 (by have := st.queue (by omega); omega)
  obtain ⟨tk, h1, h2⟩ := st.follows.taken
  rw [hq, List.append_nil] at h2
  subst h2
  have hlen : m.board.held.length ≤ 16 := st.follows.sim.sim.len
  have hol : m.board.outputs.length ≤ 16 := Nat.le_trans (List.length_filterMap_le _ _) hlen
  obtain ⟨g1, g2⟩ := st.rep (by omega)
  obtain ⟨o1, o2⟩ := st.out (by omega)
  have hout : s.backend.out = m.board.outputs := by
    rw [o1, Reporter.reportable, g1, List.take_of_length_le (by omega)]
  refine ⟨m.board, h1, hol, hout, o2, st.success (by omega), ?_⟩
  have hh := held_moves hl c _ (ms.map (·.1) ++ List.replicate still.length raw) rfl (fun x hx => by
    rcases List.mem_append.1 hx with hx | hx
    · obtain ⟨y, hy, rfl⟩ := List.mem_map.1 hx; exact hms y hy
    · rw [List.eq_of_mem_replicate hx]; exact hsize)
  have hcur := (scans_still (rows := rows) (cols := cols) (raws := ms.map (·.1)) (raw := raw) (k := still.length) (by omega)).1
  rw [debounced, C88_debounced] at hcur
  rw [hcur, ← h1] at hh
  exact hh

theorem board_turn {R Ev Ctx PKS KS : Type} {C : Cfg R Ev Ctx PKS KS} {n : Nat} {s s' : Board R Ev Ctx PKS KS} {m : Milli} (h : s.step C n indices m = .ok s') :
    s.toCore.turn C n indices m.turn = .ok s'.toCore := by
  obtain ⟨s1, g1, g2⟩ := step_ok h
  obtain ⟨codes, cs, prev, consumers, w1, w2, w3, w4, rfl⟩ := write_ok g2
  obtain ⟨core, k1, k2⟩ := Res.bind_eq_ok.1 g1
  cases k2
  exact Res.bind_eq_ok.2 ⟨core, k1, rfl⟩

theorem board_run {R Ev Ctx PKS KS : Type} {C : Cfg R Ev Ctx PKS KS} {n : Nat} {ms : List Milli} : ∀ {s s' : Board R Ev Ctx PKS KS},
    s.run C n indices ms = .ok s' → s.toCore.run C n indices (ms.map Milli.turn) = .ok s'.toCore := by
  induction ms with
  | nil => intro s s' h; cases h; rfl
  | cons m ms ih =>
    intro s s' h
    obtain ⟨s1, g1, g2⟩ := Res.bind_eq_ok.1 h
    exact Res.bind_eq_ok.2 ⟨_, board_turn g1, ih g2⟩

/-! ## C89 -/

/-- The switches move in whatever way, in `ms`, and the driver answers whatever it likes. Then, in `still`, for 80 ms or more, the switches do not move and the
keyboard reports do not wait. There is room for the key events. -/
structure Rests {Rep : Type} (make : List Byte → Rep) (K : Comp.Keys) (refs : List Comp.Ref) (S : Search) (n : Nat) (c : Comp.Config) (rows cols : Nat)
    (indices : List (List (Option Nat))) (ms still : List Milli) (raw : Levels) (s : CBoard) : Prop where
  long : 80 ≤ still.length
  levels : ∀ m ∈ ms, Size rows cols m.raw
  size : Size rows cols raw
  rest : ∀ m ∈ still, m.raw = raw ∧ m.keyboard ≠ .wouldBlock
  time : ms.length + still.length < u32Size
  runs : (fresh rows cols c).run ⟨Comp.system K, refs, S⟩ (n + 2) indices (ms ++ still) = .ok s
  lawful : Lawful ⟨Comp.system K, refs, S⟩ (n + 2) indices make (fresh rows cols c) (ms ++ still)
  roomy : Roomy ⟨Comp.system K, refs, S⟩ (n + 2) indices (fresh rows cols c).toCore ((ms ++ still).map Milli.turn)

/-- C89. Whatever has happened: when the switches have not moved for 80 ms, the report the driver has accepted last is that of the outputs of the board of the keymap
after the events of the debounced switches; and the keys the board holds are those whose switches are closed. -/
theorem C89_settles {Rep : Type} [DecidableEq Rep] {make : List Byte → Rep} {c : Comp.Config} (hp : Comp.Plain K refs c layout) {rows cols : Nat}
    (hl : Laid rows cols layout.length indices) {ms still : List Milli} {raw : Levels} {s : CBoard} (h : Rests make K refs S n c rows cols indices ms still raw s) :
    ∃ (b : Board.State) (codes : List Byte),
      b = (moves rows cols indices (ms.map (·.raw) ++ List.replicate still.length raw)).foldl (Board.State.input layout) (start c) ∧
      b.outputs.length ≤ 16 ∧ KeymapOutput.pressedKeyCodes b.outputs = .ok codes ∧ s.sent.getLast?.map make = some (make codes) ∧
      ∀ i, b.holds i = true ↔ ∃ r c, KeyAt indices r c i ∧ entry raw r c = some true := by
  have hrun := board_run h.runs
  have hro := h.roomy
  rw [List.map_append] at hrun hro
  obtain ⟨b, e1, e2, e3, e4, e5, e6⟩ := at_rest hp hl (raw := raw) (by simpa using h.long)
    (fun m hm => by obtain ⟨y, hy, rfl⟩ := List.mem_map.1 hm; exact h.levels y hy) h.size
    (fun m hm => by obtain ⟨y, hy, rfl⟩ := List.mem_map.1 hm; exact ⟨(h.rest y hy).1, by simpa [Milli.turn] using (h.rest y hy).2⟩)
    (by simpa using h.time) hrun hro
  obtain ⟨rs, i1, i2, i3⟩ := (InOrder.new make rows cols _).run h.lawful h.runs
  rw [e5, if_pos rfl] at i3
  have hlast : (s.made.map KeymapOutput.pressedKeyCodes).getLast? = some (KeymapOutput.pressedKeyCodes b.outputs) := by
    rw [List.getLast?_map, e4, e3]; rfl
  rw [i1, List.getLast?_map] at hlast
  cases hg : rs.getLast? with
  | none => rw [hg] at hlast; cases hlast
  | some codes =>
    rw [hg, Option.map_some, Option.some.injEq] at hlast
    refine ⟨b, codes, ?_, e2, hlast.symm, ?_, e6⟩
    · rw [e1, List.map_map, List.length_map]; rfl
    · rw [← List.getLast?_map, ← once_getLast, i3, once_getLast, List.getLast?_map, hg]; rfl

/-- C89. No key is stuck: when all the switches have been open for 80 ms, the report the driver has accepted last is the one of no key, whatever was pressed before,
whatever layers are active, and however long reports had to wait. -/
theorem C89_no_stuck_keys {Rep : Type} [DecidableEq Rep] {make : List Byte → Rep} {c : Comp.Config} (hp : Comp.Plain K refs c layout) {rows cols : Nat}
    (hl : Laid rows cols layout.length indices) {ms still : List Milli} {s : CBoard}
    (h : Rests make K refs S n c rows cols indices ms still (allOpen rows cols) s) : s.sent.getLast?.map make = some (make []) := by
  obtain ⟨b, codes, _, _, h1, h2, h3⟩ := C89_settles hp hl h
  have hnil : b.outputs = [] := by
    rw [Board.State.outputs, Keyboard.held_nil]; rfl
    intro i
    cases hs : b.holds i with
    | false => rfl
    | true =>
      obtain ⟨r, c, _, hx⟩ := (h3 i).1 hs
      exact absurd hx (allOpen_entry _ _ _ _)
  rw [hnil] at h1
  have : codes = [] := by cases h1; rfl
  rw [h2, this]

/-- On a keymap without layers: the keys and the modifiers of the report of a board. -/
theorem codes_keys (hpr : ∀ e ∈ layout, ∀ o, Has e (.out o) → Proper o) (hc : ∀ e ∈ layout, ∃ c, e = .cell c) {b : Board.State} {codes : List Byte}
    (hok : HeldOk layout b) (hol : b.outputs.length ≤ 16) (h1 : KeymapOutput.pressedKeyCodes b.outputs = .ok codes) {P : Nat → Prop}
    (h3 : ∀ i, b.holds i = true ↔ P i) :
    (∀ u : Byte, u ≠ 0 → ¬ (0xE0 ≤ u.toNat ∧ u.toNat ≤ 0xE7) → (u ∈ codes ↔ ∃ (i : Nat) (o : KeyOutput), P i ∧
        layout[i]? = some (Entry.cell (.out o)) ∧ o.usage = .keyboard u)) ∧
      (∀ j, j < 8 → (Spec.modCode j ∈ codes ↔ ∃ (i : Nat) (o : KeyOutput), P i ∧
        layout[i]? = some (Entry.cell (.out o)) ∧ o.mods.getLsbD j = true)) := by
  have hout : ∀ o, o ∈ b.outputs ↔ ∃ i, P i ∧ layout[i]? = some (Entry.cell (.out o)) := by
    intro o
    constructor
    · intro ho
      obtain ⟨⟨i, x⟩, hp1, hp2⟩ := List.mem_filterMap.1 ho
      obtain ⟨e, he, hh⟩ := hok.has _ hp1
      obtain ⟨x', rfl⟩ := hc e (List.mem_of_getElem? he)
      cases hh
      refine ⟨i, (h3 i).1 (by rw [Board.State.holds, List.any_eq_true]; exact ⟨_, hp1, by simp⟩), ?_⟩
      cases x <;> simp only [Cell.output, Option.some.injEq, reduceCtorEq] at hp2
      subst hp2
      exact he
    · rintro ⟨i, a1, a3⟩
      have := (h3 i).2 a1
      rw [Board.State.holds, List.any_eq_true] at this
      obtain ⟨⟨j, x⟩, hp, hj⟩ := this
      simp only [beq_iff_eq] at hj
      subst hj
      obtain ⟨e, he, hh⟩ := hok.has _ hp
      simp only at he
      rw [a3] at he
      cases he
      cases hh
      exact List.mem_filterMap.2 ⟨_, hp, rfl⟩
  have hproper : ∀ o ∈ b.outputs, Proper o := by
    intro o ho
    obtain ⟨i, _, a3⟩ := (hout o).1 ho
    exact hpr _ (List.mem_of_getElem? a3) o rfl
  obtain ⟨mods, _, m2, m3⟩ := C03_pressed_key_codes (b.outputs.map Keyboard.req) (by simpa [maxPressedKeys] using hol)
  rw [Keyboard.map_req hproper, h1, Res.ok.injEq] at m3
  have hmod : ∀ i, i ∈ mods ↔ i < 8 ∧ ∃ o ∈ b.outputs, o.mods.getLsbD i = true := by
    intro i
    rw [m2]
    refine and_congr_right fun hi => ?_
    constructor
    · rintro ⟨q, hq, ha⟩
      obtain ⟨o, ho, rfl⟩ := List.mem_map.1 hq
      rcases ha with ha | ha
      · exact ⟨o, ho, ha⟩
      · have := hproper o ho _ ha
        simp only [Spec.modCode, BitVec.toNat_ofNat] at this
        omega
    · rintro ⟨o, ho, ha⟩
      exact ⟨Keyboard.req o, List.mem_map_of_mem ho, .inl ha⟩
  have hval : ∀ j, j < 8 → (Spec.modCode j).toNat = 0xE0 + j := fun j hj => by
    simp only [Spec.modCode, BitVec.toNat_ofNat]; omega
  have hshown : ∀ u : Byte, u ≠ 0 → (u ∈ (b.outputs.map Keyboard.req).filterMap (fun q => Spec.keyCodeShown? q.usage) ↔
      ¬ (0xE0 ≤ u.toNat ∧ u.toNat ≤ 0xE7) ∧ ∃ o ∈ b.outputs, o.usage = .keyboard u) := by
    intro u hu
    rw [List.mem_filterMap]
    constructor
    · rintro ⟨q, hq, hs⟩
      obtain ⟨o, ho, rfl⟩ := List.mem_map.1 hq
      simp only [Keyboard.req] at hs
      cases hus : o.usage <;> rw [hus] at hs <;> simp only [Spec.keyCodeShown?, Option.some.injEq, reduceCtorEq] at hs
      split at hs
      · exact absurd hs.symm hu
      · next hn => subst hs; exact ⟨hn, o, ho, hus⟩
    · rintro ⟨hn, o, ho, hus⟩
      refine ⟨Keyboard.req o, List.mem_map_of_mem ho, ?_⟩
      simp only [Keyboard.req, hus, Spec.keyCodeShown?]
      rw [if_neg hn]
  refine ⟨fun u hu hm => ?_, fun j hj => ?_⟩
  · rw [m3, List.mem_append, hshown u hu]
    constructor
    · rintro (hx | ⟨_, o, ho, hus⟩)
      · obtain ⟨j, hj, rfl⟩ := List.mem_map.1 hx
        have h8 := ((hmod j).1 hj).1
        rw [hval j h8] at hm
        omega
      · obtain ⟨i, a1, a3⟩ := (hout o).1 ho
        exact ⟨i, o, a1, a3, hus⟩
    · rintro ⟨i, o, a1, a3, hus⟩
      exact .inr ⟨hm, o, (hout o).2 ⟨i, a1, a3⟩, hus⟩
  · have hne : Spec.modCode j ≠ 0 := fun h0 => by have := congrArg BitVec.toNat h0; rw [hval j hj] at this; simp at this
    rw [m3, List.mem_append, hshown _ hne]
    constructor
    · rintro (hx | ⟨hn, _⟩)
      · obtain ⟨j', hj', he⟩ := List.mem_map.1 hx
        obtain ⟨h8, o, ho, hb⟩ := (hmod j').1 hj'
        have := congrArg BitVec.toNat he
        rw [hval _ h8, hval j hj] at this
        obtain rfl : j' = j := by omega
        obtain ⟨i, a1, a3⟩ := (hout o).1 ho
        exact ⟨i, o, a1, a3, hb⟩
      · rw [hval j hj] at hn; omega
    · rintro ⟨i, o, a1, a3, hb⟩
      exact .inl (List.mem_map.2 ⟨j, (hmod j).2 ⟨hj, o, (hout o).2 ⟨i, a1, a3⟩, hb⟩, rfl⟩)

/-- C89. On a keymap without layers the report has a key exactly if the switch of a place with this key is closed, and a modifier exactly if the switch of a place
with this modifier is closed. -/
theorem C89_keys {Rep : Type} [DecidableEq Rep] {make : List Byte → Rep} {c : Comp.Config} (hp : Comp.Plain K refs c layout)
    (hpr : ∀ e ∈ layout, ∀ o, Has e (.out o) → Proper o) (hc : ∀ e ∈ layout, ∃ c, e = .cell c) {rows cols : Nat}
    (hl : Laid rows cols layout.length indices) {ms still : List Milli} {raw : Levels} {s : CBoard} (h : Rests make K refs S n c rows cols indices ms still raw s) :
    ∃ codes : List Byte, s.sent.getLast?.map make = some (make codes) ∧
      (∀ u : Byte, u ≠ 0 → ¬ (0xE0 ≤ u.toNat ∧ u.toNat ≤ 0xE7) → (u ∈ codes ↔ ∃ (r c i : Nat) (o : KeyOutput), KeyAt indices r c i ∧ entry raw r c = some true ∧
        layout[i]? = some (Entry.cell (.out o)) ∧ o.usage = .keyboard u)) ∧
      (∀ j, j < 8 → (Spec.modCode j ∈ codes ↔ ∃ (r c i : Nat) (o : KeyOutput), KeyAt indices r c i ∧ entry raw r c = some true ∧
        layout[i]? = some (Entry.cell (.out o)) ∧ o.mods.getLsbD j = true)) := by
  obtain ⟨b, codes, h0, hol, h1, h2, h3⟩ := C89_settles hp hl h
  obtain ⟨k1, k2⟩ := codes_keys hpr hc (by rw [h0]; exact heldOk_foldl _ (heldOk_start c)) hol h1 h3
  refine ⟨codes, h2, fun u hu hm => ?_, fun j hj => ?_⟩
  · rw [k1 u hu hm]
    exact ⟨fun ⟨i, o, ⟨r, c, a1, a2⟩, a3⟩ => ⟨r, c, i, o, a1, a2, a3⟩, fun ⟨r, c, i, o, a1, a2, a3⟩ => ⟨i, o, ⟨r, c, a1, a2⟩, a3⟩⟩
  · rw [k2 j hj]
    exact ⟨fun ⟨i, o, ⟨r, c, a1, a2⟩, a3⟩ => ⟨r, c, i, o, a1, a2, a3⟩, fun ⟨r, c, i, o, a1, a2, a3⟩ => ⟨i, o, ⟨r, c, a1, a2⟩, a3⟩⟩

end

namespace Demo

/-- A run, if there is room. -/
def roomyRun {R Ev Ctx PKS KS : Type} (C : Cfg R Ev Ctx PKS KS) (n : Nat) (indices : List (List (Option Nat))) (s : Board R Ev Ctx PKS KS) :
    List Milli → Option (Board R Ev Ctx PKS KS)
  | [] => some s
  | m :: ms =>
    if s.backend.km.inq.length + (s.deb.events m.raw).2.length ≤ 31 then
      match s.step C n indices m with
      | .ok s => roomyRun C n indices s ms
      | _ => none
    else none

theorem roomyRun_sound {R Ev Ctx PKS KS : Type} {C : Cfg R Ev Ctx PKS KS} {n : Nat} {indices : List (List (Option Nat))} : ∀ (ms : List Milli)
    {s s' : Board R Ev Ctx PKS KS}, roomyRun C n indices s ms = some s' → s.run C n indices ms = .ok s' ∧ Roomy C n indices s.toCore (ms.map Milli.turn)
  | [], s, s', h => by cases h; exact ⟨rfl, trivial⟩
  | m :: ms, s, s', h => by
    rw [roomyRun] at h
    split at h
    · next hr =>
      split at h
      · next s1 hs =>
        obtain ⟨h1, h2⟩ := roomyRun_sound ms h
        exact ⟨Res.bind_eq_ok.2 ⟨s1, hs, h1⟩, hr, fun s' h' => by rw [board_turn hs] at h'; cases h'; exact h2⟩
      · cases h
    · cases h

/-- Two keys in a column, a and b. -/
def two : List (List (Option Nat)) := [[some 0], [some 1]]

theorem laid : Laid 2 1 Keyboard.Demo.layout.length two where
  size := ⟨rfl, by decide⟩
  within := by
    intro r c i h
    rcases r with _ | _ | r <;> rcases c with _ | c <;> simp [KeyAt, entry, two] at h <;> subst h <;> decide
  different := by
    intro r c r' c' i h h'
    rcases r with _ | _ | r <;> rcases c with _ | c <;> simp [KeyAt, entry, two] at h <;>
      rcases r' with _ | _ | r' <;> rcases c' with _ | c' <;> simp [KeyAt, entry, two] at h' <;> first | exact ⟨rfl, rfl⟩ | omega

/-- b is pressed, its report waits; then a is held. -/
def before : List Milli := List.replicate 40 ⟨[[false], [true]], .ok, .ok, .ok⟩ ++ List.replicate 40 ⟨[[true], [true]], .wouldBlock, .ok, .ok⟩

def after : List Milli := List.replicate 100 ⟨[[true], [false]], .ok, .ok, .ok⟩

set_option maxRecDepth 100000 in
theorem roomy_eq : ((roomyRun ⟨Comp.system Keyboard.Demo.K, Keyboard.Demo.refs, Search.std⟩ 2 two (fresh 2 1 Keyboard.Demo.config) (before ++ after)).map fun s => once s.sent) =
    some [[], [5], [5, 4], [4]] := by decide +kernel

/-- The hypotheses of C89 hold of this history. -/
example : ∃ s, Rests id Keyboard.Demo.K Keyboard.Demo.refs Search.std 0 Keyboard.Demo.config 2 1 two before after [[true], [false]] s ∧
    s.sent.getLast? = some [4] := by
  obtain ⟨s, h1, h2⟩ := Option.map_eq_some_iff.1 roomy_eq
  obtain ⟨h3, h4⟩ := roomyRun_sound _ h1
  refine ⟨s, ⟨by decide, ?_, ⟨rfl, by decide⟩, ?_, by decide, h3, lawful_of id _ _ ?_, h4⟩, ?_⟩
  · intro m hm
    simp only [before, List.mem_append] at hm
    rcases hm with hm | hm <;> rw [List.eq_of_mem_replicate hm] <;> exact ⟨rfl, by decide⟩
  · intro m hm
    rw [List.eq_of_mem_replicate hm]
    exact ⟨rfl, by decide⟩
  · intro m hm
    simp only [before, after, List.mem_append] at hm
    rcases hm with (hm | hm) | hm <;> rw [List.eq_of_mem_replicate hm] <;> decide
  · rw [← once_getLast, h2]; rfl

/-- a is tapped, `k` times, while b is held, and reports wait. -/
def taps : Nat → List Milli
  | 0 => []
  | k + 1 => List.replicate 26 ⟨[[true], [true]], .wouldBlock, .ok, .ok⟩ ++ List.replicate 26 ⟨[[false], [true]], .wouldBlock, .ok, .ok⟩ ++ taps k

/-- The computer does not ask for reports. b is pressed, a is tapped sixteen times, b is released. Then, for 120 ms, the computer asks again. -/
def away : List Milli :=
  List.replicate 40 ⟨[[false], [false]], .ok, .ok, .ok⟩ ++ List.replicate 26 ⟨[[false], [true]], .wouldBlock, .ok, .ok⟩ ++ taps 16 ++
    List.replicate 26 ⟨[[false], [false]], .wouldBlock, .ok, .ok⟩ ++ List.replicate 120 ⟨[[false], [false]], .ok, .ok, .ok⟩

set_option maxRecDepth 100000 in
theorem away_eq : (fun s => s.sent.getLast?) <$> (fresh 2 1 Keyboard.Demo.config).run ⟨Comp.system Keyboard.Demo.K, Keyboard.Demo.refs, Search.std⟩ 2 two away =
    .ok (some [5, 4]) := by decide +kernel

end Demo

/-- C89, without room for the events: while reports wait the keymap takes no events. When 31 wait, events are lost, and keys whose release is lost are reported
long after all the switches are open and the computer asks again. -/
theorem C89_stuck_refuted : ∃ s, (fresh 2 1 Keyboard.Demo.config).run ⟨Comp.system Keyboard.Demo.K, Keyboard.Demo.refs, Search.std⟩ 2 Demo.two Demo.away = .ok s ∧
    s.sent.getLast? = some [5, 4] := Res.map_eq_ok.1 Demo.away_eq

end Verif.Rtic
