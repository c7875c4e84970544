import Verif.Lemmas.OneShotRun

/-!
# Tapped and interrupted sticky layer keys on the keyboard
-/

namespace Verif.OneShot

variable {layout : List Pos}

theorem inputs_append_o {s : State} (xs ys : List InputEvent) :
    s.inputs layout (xs ++ ys) = (s.inputs layout xs).bind fun s => s.inputs layout ys := by
  induction xs generalizing s with
  | nil => rfl
  | cons x xs ih =>
    simp only [List.cons_append, State.inputs]
    cases s.input layout x with
    | none => rfl
    | some s => exact ih

theorem pick_congr_o {s s' : State} (h1 : s'.on = s.on) (h2 : s'.dflt = s.dflt) (p : Pos) : p.pick s' = p.pick s := by
  cases p with
  | act a => rfl
  | layered b as => simp only [Pos.pick, h1, h2]

/-- Only key `u`, if any, has been pressed since layer `l` was turned on for one key. -/
def State.armed (s : State) (l : Nat) (u : Option Nat) : State := { s.turn l .once with user := u }

/-- A key is added to the held ones. -/
def State.add (s : State) (k : Nat) (a : Act) : State := { s with held := s.held ++ [(k, a)] }

/-- No layer is on for one key, no sticky layer key is held, and no key holds layer `l`. -/
structure State.Calm (s : State) (l : Nat) : Prop where
  once : s.once = none
  shots : ∀ i l', (i, Act.oneShot l') ∉ s.held
  holds : ∀ i, (i, Act.cell (.hold l)) ∉ s.held
  fits : ∀ p ∈ s.held, p.2.Fits s.layers.length
  range : 0 < l ∧ l ≤ s.layers.length

theorem once_none_iff {s : State} : s.once = none ↔ ∀ x ∈ s.layers, x ≠ .once := by
  simp [State.once, List.findIdx?_eq_none_iff]

theorem armed_once {s : State} {l : Nat} (h : s.once = none) (h0 : 0 < l) (h1 : l ≤ s.layers.length) (u : Option Nat) :
    (s.armed l u).once = some l := by
  rw [once_none_iff] at h
  have : (s.layers.set (l - 1) .once).findIdx? (fun x => x == .once) = some (l - 1) := by
    rw [List.findIdx?_eq_some_iff_getElem]
    refine ⟨by simp; omega, by simp, ?_⟩
    intro j hj
    rw [List.getElem_set_ne (by omega)]
    simpa using h _ (List.getElem_mem _)
  simp only [State.once, State.armed, State.turn, this, Option.map_some]
  congr 1
  omega

theorem use_calm {s : State} (h : s.once = none) (i : Nat) : s.use i = s := by simp only [State.use, h]
theorem used_calm {s : State} (h : s.once = none) (i : Nat) : s.used i = s := by simp only [State.used, h]

theorem interrupt_calm {s : State} (h : ∀ i l', (i, Act.oneShot l') ∉ s.held) : s.interrupt = s := by
  have h1 : ∀ (ps : List (Nat × Act)) (s : State), (∀ i l', (i, Act.oneShot l') ∉ ps) → s.holdAll ps = s := by
    intro ps
    induction ps with
    | nil => intro s _; rfl
    | cons p ps ih =>
      intro s hs
      obtain ⟨i, a⟩ := p
      have := ih s (fun i l' hm => hs i l' (List.mem_cons_of_mem _ hm))
      cases a with
      | cell c => exact this
      | oneShot l => exact absurd List.mem_cons_self (hs i l)
  have h2 : s.held.map (fun p => (p.1, p.2.interrupt)) = s.held := by
    apply List.ext_getElem (by simp)
    intro n h1 h2
    rw [List.getElem_map]
    have hm := List.getElem_mem h2
    revert hm
    generalize s.held[n] = p
    obtain ⟨i, a⟩ := p
    intro hm
    cases a with
    | cell c => rfl
    | oneShot l => exact absurd hm (h i l)
  rw [State.interrupt, h1 _ _ h, h2]

theorem State.Calm.release {s : State} {l : Nat} (h : s.Calm l) (i : Nat) : (s.release i).Calm l := by
  have hsub : ∀ p ∈ (s.release i).held, p ∈ s.held := by
    intro p hp
    simp only [State.release] at hp
    split at hp
    · rw [act_release_held] at hp
      exact (List.mem_filter.1 hp).1
    · rw [used_held] at hp; exact hp
  have hlen : (s.release i).layers.length = s.layers.length := by
    simp only [State.release]
    split
    · rw [act_release_length, used_length]
    · rw [used_length]
  refine ⟨?_, fun j l' hm => h.shots j l' (hsub _ hm), fun j hm => h.holds j (hsub _ hm), ?_, by rw [hlen]; exact h.range⟩
  · have ho := h.once
    rw [once_none_iff] at ho ⊢
    simp only [State.release, used_calm h.once]
    split
    · rename_i p hp
      intro x hx
      unfold Act.release State.turn at hx
      split at hx
      · rcases List.mem_or_eq_of_mem_set hx with hx | rfl
        · exact ho x hx
        · simp
      · exact ho x hx
      · exact ho x hx
    · exact ho
  · rw [hlen]
    exact fun p hp => h.fits p (hsub p hp)

/-- Releasing other keys does not concern the layer. -/
theorem armed_release {s : State} {l : Nat} (h : s.Calm l) {u : Option Nat} {i : Nat} (hu : u ≠ some i) :
    (s.armed l u).release i = (s.release i).armed l (if u = none then none else u) := by
  have hu2 : (if u = none then none else u) = u := by split <;> simp_all
  rw [hu2]
  have hused : (s.armed l u).used i = s.armed l u := by
    simp only [State.used, armed_once h.once h.range.1 h.range.2]
    rw [if_neg (show (s.armed l u).user ≠ some i from hu)]
  simp only [State.release, hused, used_calm h.once]
  rw [show (s.armed l u).held = s.held from rfl]
  cases hf : s.held.find? (fun p => p.1 == i) with
  | none => rfl
  | some p =>
    obtain ⟨j, a⟩ := p
    have hm := List.mem_of_find?_eq_some hf
    cases a with
    | oneShot l' => exact absurd hm (h.shots j l')
    | cell c =>
      cases c with
      | hold l' =>
        have hne : l' ≠ l := by rintro rfl; exact h.holds j hm
        have hft : 0 < l' ∧ l' ≤ _ := h.fits _ hm
        have h0 := h.range.1
        simp only [Act.release, State.armed, State.turn]
        rw [List.set_comm _ _ (by omega : l - 1 ≠ l' - 1)]
      | _ => rfl

/-- Some keys are released. -/
def State.releases (s : State) (is : List Nat) : State := is.foldl State.release s

theorem inputs_releases (s : State) (is : List Nat) : s.inputs layout (is.map .release) = some (s.releases is) := by
  induction is generalizing s with
  | nil => rfl
  | cons i is ih => exact ih _

theorem State.Calm.releases {s : State} {l : Nat} (h : s.Calm l) (is : List Nat) : (s.releases is).Calm l := by
  induction is generalizing s with
  | nil => exact h
  | cons i is ih => exact ih (h.release i)

theorem armed_releases {s : State} {l : Nat} (h : s.Calm l) {u : Option Nat} {is : List Nat} (hu : ∀ i ∈ is, u ≠ some i) :
    (s.armed l u).releases is = (s.releases is).armed l u := by
  induction is generalizing s with
  | nil => rfl
  | cons i is ih =>
    have h1 := armed_release h (hu i List.mem_cons_self)
    have hu2 : (if u = none then none else u) = u := by split <;> simp_all
    rw [hu2] at h1
    show ((s.armed l u).release i).releases is = _
    rw [h1]
    exact ih (h.release i) (fun j hj => hu j (List.mem_cons_of_mem _ hj))

/-- A key that is held stays where it is when others are released. -/
theorem release_snoc {s : State} {k i : Nat} {c : Act} (hk : i ≠ k) (hc : s.holds k = false) :
    (s.add k c).release i = (s.release i).add k c := by
  have hu : (s.add k c).used i = { s.used i with held := s.held ++ [(k, c)] } := by
    unfold State.used
    rw [show (s.add k c).once = s.once from rfl]
    split
    · rfl
    · by_cases hx : s.user = some i
      · simp only [show (s.add k c).user = s.user from rfl, hx, if_true]; rfl
      · simp only [show (s.add k c).user = s.user from rfl, hx, if_false]; rfl
  have hfind : (s.held ++ [(k, c)]).find? (fun p => p.1 == i) = s.held.find? (fun p => p.1 == i) := by
    rw [List.find?_append]
    have : [(k, c)].find? (fun p => p.1 == i) = none := by simp [Ne.symm hk]
    rw [this, Option.or_none]
  have hfil : (s.held ++ [(k, c)]).filter (fun p => p.1 != i) = s.held.filter (fun p => p.1 != i) ++ [(k, c)] := by
    rw [List.filter_append]
    congr 1
    simp [Ne.symm hk]
  rw [State.release, hu, show (s.add k c).held = s.held ++ [(k, c)] from rfl, hfind, hfil]
  simp only [State.release]
  cases s.held.find? (fun p => p.1 == i) with
  | none => simp only [State.add, used_held]
  | some p =>
    simp only [State.add, act_release_held]
    generalize p.2 = a
    unfold Act.release State.turn
    split <;> rfl

theorem release_holds {s : State} {k : Nat} (i : Nat) (h : s.holds k = false) : (s.release i).holds k = false := by
  have hsub : ∀ p ∈ (s.release i).held, p ∈ s.held := by
    intro p hp
    simp only [State.release] at hp
    split at hp
    · rw [act_release_held] at hp
      exact (List.mem_filter.1 hp).1
    · rw [used_held] at hp; exact hp
  simp only [State.holds, List.any_eq_false] at h ⊢
  exact fun p hp => h p (hsub p hp)

theorem releases_snoc {s : State} {k : Nat} {c : Act} {is : List Nat} (hk : ∀ i ∈ is, i ≠ k) (hc : s.holds k = false) :
    (s.add k c).releases is = (s.releases is).add k c := by
  induction is generalizing s with
  | nil => rfl
  | cons i is ih =>
    show ((s.add k c).release i).releases is = _
    rw [release_snoc (hk i List.mem_cons_self) hc]
    exact ih (fun j hj => hk j (List.mem_cons_of_mem _ hj)) (release_holds i hc)

theorem releases_length (s : State) (is : List Nat) : (s.releases is).held.length ≤ s.held.length := by
  induction is generalizing s with
  | nil => exact Nat.le_refl _
  | cons i is ih =>
    refine Nat.le_trans (ih _) ?_
    simp only [State.release]
    split
    · rw [act_release_held]; exact List.length_filter_le _ _
    · rw [used_held]; exact Nat.le_refl _

theorem releases_holds {s : State} {k : Nat} {is : List Nat} (h : s.holds k = false) : (s.releases is).holds k = false := by
  induction is generalizing s with
  | nil => exact h
  | cons i is ih => exact ih (release_holds i h)

theorem find_snoc {ps : List (Nat × Act)} {j : Nat} (a : Act) (h : ps.any (fun p => p.1 == j) = false) :
    (ps ++ [(j, a)]).find? (fun p => p.1 == j) = some (j, a) := by
  rw [List.find?_append]
  have : ps.find? (fun p => p.1 == j) = none := by
    rw [List.find?_eq_none]
    exact List.any_eq_false.1 h
  rw [this]
  simp

theorem filter_snoc {ps : List (Nat × Act)} {j : Nat} (a : Act) (h : ps.any (fun p => p.1 == j) = false) :
    (ps ++ [(j, a)]).filter (fun p => p.1 != j) = ps := by
  rw [List.filter_append]
  have h1 : ps.filter (fun p => p.1 != j) = ps := by
    rw [List.filter_eq_self]
    intro p hp
    have := List.any_eq_false.1 h p hp
    simpa using this
  rw [h1]
  simp

/-- A tap of a sticky layer key. -/
theorem tap_oneShot {s : State} {j l : Nat} {p : Pos} (h : s.Calm l) (hl : s.held.length < 16) (hj : layout[j]? = some p)
    (hh : s.holds j = false) (hp : p.pick s = .oneShot l) : s.inputs layout [.press j, .release j] = some (s.armed l none) := by
  have h1 : s.press layout j = some { s.armed l none with held := s.held ++ [(j, .oneShot l)] } := by
    simp only [State.press, hh, use_calm h.once, interrupt_calm h.shots, Bool.false_eq_true, if_false, if_pos hl, hj, Option.map_some, hp]
    rfl
  have h2 : ({ s.armed l none with held := s.held ++ [(j, .oneShot l)] } : State).release j = s.armed l none := by
    have hu : ({ s.armed l none with held := s.held ++ [(j, .oneShot l)] } : State).used j = { s.armed l none with held := s.held ++ [(j, .oneShot l)] } := by
      have := armed_once h.once h.range.1 h.range.2 none
      unfold State.used
      rw [show ({ s.armed l none with held := s.held ++ [(j, Act.oneShot l)] } : State).once = some l from this]
      rfl
    simp only [State.release, hu, find_snoc _ hh, filter_snoc _ hh, Act.release]
    rfl
  simp only [State.inputs, State.input, h1, Option.bind_some, h2]

/-- The next key. -/
theorem press_armed {s : State} {k l : Nat} {p : Pos} {ko : KeyOutput} (h : s.Calm l) (hl : s.held.length < 16) (hk : layout[k]? = some p)
    (hh : s.holds k = false) (hp : p.pick (s.turn l .on) = .cell (.out ko)) :
    (s.armed l none).press layout k = some ((s.add k (.cell (.out ko))).armed l (some k)) := by
  have hu : (s.armed l none).use k = s.armed l (some k) := by
    simp only [State.use, armed_once h.once h.range.1 h.range.2]
    rfl
  have hi : (s.armed l (some k)).interrupt = s.armed l (some k) := interrupt_calm h.shots
  have hpk : p.pick (s.armed l (some k)) = .cell (.out ko) := by
    rw [← hp]
    refine pick_congr_o (s := s.turn l .on) (s' := s.armed l (some k)) ?_ rfl p
    simp only [State.on, State.armed, State.turn, List.map_set]
    rfl
  have hh' : (s.armed l none).holds k = false := hh
  have hl' : (s.armed l none).held.length < 16 := hl
  simp only [State.press, hu, hi, hh', Bool.false_eq_true, if_false, if_pos hl', hk, Option.map_some, hpk]
  rfl

/-- Releasing it. -/
theorem release_armed {s : State} {k l : Nat} {ko : KeyOutput} (h : s.Calm l) (hh : s.holds k = false) :
    ((s.add k (.cell (.out ko))).armed l (some k)).release k = { s.turn l .off with user := none } := by
  have hon := armed_once h.once h.range.1 h.range.2 (some k)
  have hu : ((s.add k (.cell (.out ko))).armed l (some k)).used k =
      { ((s.add k (.cell (.out ko))).armed l (some k)).turn l .off with user := none } := by
    unfold State.used
    rw [show ((s.add k (.cell (.out ko))).armed l (some k)).once = some l from hon]
    simp only
    rw [if_pos (show ((s.add k (.cell (.out ko))).armed l (some k)).user = some k from rfl)]
  simp only [State.release, hu]
  rw [show ((s.add k (.cell (.out ko))).armed l (some k)).held = s.held ++ [(k, .cell (.out ko))] from rfl,
    find_snoc _ hh, filter_snoc _ hh]
  simp only [Act.release, State.armed, State.add, State.turn, List.set_set]

/-- Pressing another key. -/
theorem press_again {s : State} {k x l : Nat} {p : Pos} {ko ko' : KeyOutput} (h : s.Calm l) (hl : s.held.length < 15) (hx : layout[x]? = some p)
    (hh : s.holds x = false) (hkx : x ≠ k) (hp : p.pick (s.turn l .off) = .cell (.out ko')) :
    ((s.add k (.cell (.out ko))).armed l (some k)).press layout x =
      some { s.turn l .off with held := s.held ++ [(k, .cell (.out ko)), (x, .cell (.out ko'))], user := none } := by
  have hon := armed_once h.once h.range.1 h.range.2 (some k)
  obtain ⟨t, ht⟩ : ∃ t : State, t = { s.turn l .off with held := s.held ++ [(k, .cell (.out ko))], user := none } := ⟨_, rfl⟩
  have hu : ((s.add k (.cell (.out ko))).armed l (some k)).use x = t := by
    unfold State.use
    rw [show ((s.add k (.cell (.out ko))).armed l (some k)).once = some l from hon, ht]
    simp only
    rw [if_pos (show ((s.add k (.cell (.out ko))).armed l (some k)).user.isSome = true from rfl)]
    simp only [State.armed, State.add, State.turn, List.set_set]
  have hi : t.interrupt = t := by
    apply interrupt_calm
    intro i l' hm
    rw [ht] at hm
    simp only [List.mem_append, List.mem_cons, Prod.mk.injEq, List.not_mem_nil, or_false] at hm
    rcases hm with hm | ⟨_, hm⟩
    · exact h.shots i l' hm
    · cases hm
  have hpk : p.pick t = .cell (.out ko') := by
    rw [← hp, ht]
    exact pick_congr_o (s := s.turn l .off) rfl rfl p
  have hh' : ((s.add k (.cell (.out ko))).armed l (some k)).holds x = false := by
    show (s.held ++ [(k, Act.cell (.out ko))]).any (fun p => p.1 == x) = false
    rw [List.any_append, show s.held.any (fun p => p.1 == x) = false from hh]
    simp [Ne.symm hkx]
  have hl' : ((s.add k (.cell (.out ko))).armed l (some k)).held.length < 16 := by
    show (s.held ++ [(k, Act.cell (.out ko))]).length < 16
    simp only [List.length_append, List.length_cons, List.length_nil]; omega
  simp only [State.press, hu, hi, hh', Bool.false_eq_true, if_false, if_pos hl', hx, Option.map_some, hpk, Act.press]
  rw [ht]
  simp only [List.append_assoc, List.cons_append, List.nil_append]

/-- A plain key when no layer is on for one key. -/
theorem press_calm {s : State} {x : Nat} {p : Pos} {ko : KeyOutput} (h : s.once = none) (hs : ∀ i l', (i, Act.oneShot l') ∉ s.held)
    (hl : s.held.length < 16) (hx : layout[x]? = some p) (hh : s.holds x = false) (hp : p.pick s = .cell (.out ko)) :
    s.press layout x = some { s with held := s.held ++ [(x, .cell (.out ko))] } := by
  simp only [State.press, use_calm h, interrupt_calm hs, hh, Bool.false_eq_true, if_false, if_pos hl, hx, Option.map_some, hp, Act.press]

theorem off_once {s : State} {l : Nat} (h : s.once = none) : ({ s.turn l .off with user := none } : State).once = none := by
  rw [once_none_iff] at h ⊢
  intro x hx
  rcases List.mem_or_eq_of_mem_set hx with hx | rfl
  · exact h x hx
  · simp

end Verif.OneShot

namespace Verif.OneShot

variable {layout : List Pos}

/-! ## An interrupted sticky layer key -/

/-- The key changes layer `l`. -/
def Act.touches (l : Nat) : Act → Bool
  | .cell (.hold l') | .cell (.toggle l') | .oneShot l' => l' == l
  | .cell (.setLayers _) => true
  | _ => false

/-- None of the keys of the position changes layer `l`. -/
def Pos.Spares (l : Nat) : Pos → Prop
  | .act a => a.touches l = false
  | .layered base as => base.touches l = false ∧ ∀ a, some a ∈ as → a.touches l = false

theorem highest_mem {α : Type} {on : List Bool} {cs : List (Option α)} {c : α} (h : Board.highest on cs = some c) : some c ∈ cs := by
  induction cs generalizing on with
  | nil => cases on <;> simp [Board.highest] at h
  | cons o cs ih =>
    cases on with
    | nil => simp [Board.highest] at h
    | cons b bs =>
      simp only [Board.highest] at h
      split at h
      · rename_i c' hc
        cases h
        exact List.mem_cons_of_mem _ (ih hc)
      · split at h
        · subst h; exact List.mem_cons_self
        · cases h

theorem pick_cases (p : Pos) (s : State) :
    (∃ a, p = .act a ∧ p.pick s = a) ∨ (∃ b as, p = .layered b as ∧ (p.pick s = b ∨ some (p.pick s) ∈ as)) := by
  cases p with
  | act a => exact .inl ⟨a, rfl, rfl⟩
  | layered b as =>
    refine .inr ⟨b, as, rfl, ?_⟩
    simp only [Pos.pick, Board.lookup]
    split
    · rename_i c hc; exact .inr (highest_mem hc)
    · cases s.dflt with
      | none => exact .inl rfl
      | some d =>
        simp only [Option.bind_some]
        cases hx : as[d - 1]? with
        | none => exact .inl rfl
        | some o =>
          cases o with
          | none => exact .inl rfl
          | some a => exact .inr (List.mem_of_getElem? hx)

theorem pick_spares {p : Pos} {l : Nat} (h : p.Spares l) (s : State) : (p.pick s).touches l = false := by
  rcases pick_cases p s with ⟨a, rfl, h1⟩ | ⟨b, as, rfl, h1 | h1⟩
  · rw [h1]; exact h
  · rw [h1]; exact h.1
  · exact h.2 _ h1

theorem pick_fits {p : Pos} {n : Nat} (h : p.Fits n) (s : State) : (p.pick s).Fits n := by
  rcases pick_cases p s with ⟨a, rfl, h1⟩ | ⟨b, as, rfl, h1 | h1⟩
  · rw [h1]; exact h
  · rw [h1]; exact h.1
  · exact h.2.2 _ h1

/-- Key `j` holds layer `l`, and no other held key has to do with it. -/
structure State.Holding (n : Nat) (s : State) (j l : Nat) : Prop where
  mem : (j, .cell (.hold l)) ∈ s.held
  on : s.layers[l - 1]? = some .on
  others : ∀ p ∈ s.held, p.1 ≠ j → p.2.touches l = false
  fits : ∀ p ∈ s.held, p.2.Fits n
  nodup : (s.held.map Prod.fst).Nodup
  pos : 0 < l

theorem set_other {ls : List Light} {a b : Nat} {x : Light} (h : ls[a]? = some .on) (hb : b ≠ a ∨ x = .on) : (ls.set b x)[a]? = some .on := by
  rw [List.getElem?_set]
  split
  · rename_i e
    rcases hb with hb | rfl
    · exact absurd e hb
    · rw [if_pos (by subst e; exact (List.getElem?_eq_some_iff.1 h).1)]
  · exact h

theorem once_get {s : State} {l : Nat} (h : s.once = some l) : s.layers[l - 1]? = some .once := by
  simp only [State.once, Option.map_eq_some_iff] at h
  obtain ⟨k, hk, rfl⟩ := h
  obtain ⟨h1, h2, _⟩ := List.findIdx?_eq_some_iff_getElem.1 hk
  rw [Nat.add_sub_cancel, List.getElem?_eq_getElem h1]
  simpa using h2

theorem turn_off_once {s : State} {l l' : Nat} (h : s.layers[l - 1]? = some .on) (ho : s.once = some l') :
    (s.layers.set (l' - 1) .off)[l - 1]? = some .on := by
  refine set_other h (.inl ?_)
  intro e
  have := once_get ho
  rw [e, h] at this
  cases this

theorem use_on {s : State} {l : Nat} (h : s.layers[l - 1]? = some .on) (i : Nat) : (s.use i).layers[l - 1]? = some .on := by
  unfold State.use
  split
  · exact h
  · rename_i l' ho
    split
    · exact turn_off_once h ho
    · exact h

theorem used_on {s : State} {l : Nat} (h : s.layers[l - 1]? = some .on) (i : Nat) : (s.used i).layers[l - 1]? = some .on := by
  unfold State.used
  split
  · exact h
  · rename_i l' ho
    split
    · exact turn_off_once h ho
    · exact h

theorem holdAll_on {s : State} {l : Nat} (h : s.layers[l - 1]? = some .on) (ps : List (Nat × Act)) :
    (s.holdAll ps).layers[l - 1]? = some .on := by
  induction ps generalizing s with
  | nil => exact h
  | cons p ps ih =>
    obtain ⟨i, a⟩ := p
    cases a with
    | cell c => exact ih h
    | oneShot l' => exact ih (set_other h (.inr rfl))

theorem act_press_on {s : State} {l n : Nat} (h : s.layers[l - 1]? = some .on) (h0 : 0 < l) {a : Act} (hf : a.Fits n) (ht : a.touches l = false) :
    (a.press s).layers[l - 1]? = some .on := by
  cases a with
  | oneShot l' =>
    have hne : l' ≠ l := by simpa [Act.touches] using ht
    have := hf.1
    exact set_other h (.inl (by omega))
  | cell c =>
    cases c with
    | hold l' => exact set_other h (.inr rfl)
    | toggle l' =>
      have hne : l' ≠ l := by simpa [Act.touches] using ht
      have := hf.1
      exact set_other h (.inl (by omega))
    | setLayers b => simp [Act.touches] at ht
    | _ => exact h

theorem act_release_on {s : State} {l n : Nat} (h : s.layers[l - 1]? = some .on) (h0 : 0 < l) {a : Act} (hf : a.Fits n) (ht : a.touches l = false) :
    (a.release s).layers[l - 1]? = some .on := by
  cases a with
  | oneShot l' => exact h
  | cell c =>
    cases c with
    | hold l' =>
      have hne : l' ≠ l := by simpa [Act.touches] using ht
      have := hf.1
      exact set_other h (.inl (by omega))
    | _ => exact h

theorem interrupt_touches {a : Act} {l : Nat} (h : a.touches l = false) : a.interrupt.touches l = false := by cases a <;> exact h

theorem interrupt_held (s : State) (i : Nat) : (s.use i).interrupt.held = s.held.map fun p => (p.1, p.2.interrupt) := by
  simp only [State.interrupt, use_held]

/-- A press, given what it does to the held keys. -/
theorem State.Holding.press {n : Nat} {s s' : State} {i j l : Nat} (hint : ((s.use i).interrupt).Holding n j l) (hfit : ∀ p ∈ layout, p.Fits n)
    (hsp : ∀ (x : Nat) p, layout[x]? = some p → x ≠ j → p.Spares l) (hj : s.holds j = true) (hs : s.press layout i = some s') : s'.Holding n j l := by
  simp only [State.press] at hs
  by_cases hh : s.holds i = true
  · rw [if_pos hh] at hs
    cases hs
    exact hint
  · rw [if_neg hh] at hs
    split at hs
    · obtain ⟨p, hp, rfl⟩ := Option.map_eq_some_iff.1 hs
      have hij : i ≠ j := by
        rintro rfl
        exact hh hj
      have hf := pick_fits (hfit p (List.mem_of_getElem? hp)) (s.use i)
      have ht := pick_spares (hsp i p hp hij) (s.use i)
      generalize p.pick (s.use i) = a at hf ht
      refine ⟨?_, by
        refine act_press_on (n := n) ?_ hint.pos hf ht
        exact hint.on, ?_, ?_, ?_, hint.pos⟩
      · rw [act_press_held]
        exact List.mem_append_left _ hint.mem
      · rw [act_press_held]
        intro q hq hne
        simp only [List.mem_append, List.mem_cons, List.not_mem_nil, or_false] at hq
        rcases hq with hq | rfl
        · exact hint.others q hq hne
        · exact ht
      · rw [act_press_held]
        intro q hq
        simp only [List.mem_append, List.mem_cons, List.not_mem_nil, or_false] at hq
        rcases hq with hq | rfl
        · exact hint.fits q hq
        · exact hf
      · rw [act_press_held]
        simp only
        rw [List.map_append, List.nodup_append]
        refine ⟨hint.nodup, by simp, ?_⟩
        intro x hx y hy
        have : y = i := by simpa using hy
        subst this
        rintro rfl
        rw [interrupt_held, map_fst_interrupt] at hx
        exact hh (oholds_iff.2 hx)
    · cases hs

theorem State.Holding.input {n : Nat} {s s' : State} {j l : Nat} {e : InputEvent} (h : s.Holding n j l) (hfit : ∀ p ∈ layout, p.Fits n)
    (hsp : ∀ (x : Nat) p, layout[x]? = some p → x ≠ j → p.Spares l) (he : e ≠ .release j) (hs : s.input layout e = some s') : s'.Holding n j l := by
  cases e with
  | press i =>
    refine State.Holding.press (s := s) (i := i) ?_ hfit hsp (oholds_iff.2 (List.mem_map.2 ⟨_, h.mem, rfl⟩)) hs
    have hheld := interrupt_held s i
    exact
      { mem := by rw [hheld]; exact List.mem_map.2 ⟨_, h.mem, rfl⟩
        on := holdAll_on (use_on h.on i) _
        others := by
          rw [hheld]
          intro p hp hne
          obtain ⟨q, hq, rfl⟩ := List.mem_map.1 hp
          exact interrupt_touches (h.others q hq hne)
        fits := by
          rw [hheld]
          intro p hp
          obtain ⟨q, hq, rfl⟩ := List.mem_map.1 hp
          exact act_interrupt_fits (h.fits q hq)
        nodup := by rw [hheld, map_fst_interrupt]; exact h.nodup
        pos := h.pos }
  | release i =>
    have hij : i ≠ j := fun e => he (by rw [e])
    simp only [State.input, Option.some.injEq] at hs
    subst hs
    simp only [State.release]
    cases hf : s.held.find? (fun p => p.1 == i) with
    | none => exact ⟨by simp only [used_held]; exact h.mem, used_on h.on i, by simp only [used_held]; exact h.others,
        by simp only [used_held]; exact h.fits, by simp only [used_held]; exact h.nodup, h.pos⟩
    | some p =>
      have hm := List.mem_of_find?_eq_some hf
      have hpi : p.1 = i := by simpa using List.find?_some hf
      simp only
      refine ⟨?_, by
          refine act_release_on (n := n) ?_ h.pos (h.fits p hm) (h.others p hm (by omega))
          exact used_on h.on i, ?_, ?_, ?_, h.pos⟩
      · rw [act_release_held]
        exact List.mem_filter.2 ⟨h.mem, by simpa using Ne.symm hij⟩
      · rw [act_release_held]
        exact fun q hq => h.others q (List.mem_filter.1 hq).1
      · rw [act_release_held]
        exact fun q hq => h.fits q (List.mem_filter.1 hq).1
      · rw [act_release_held]
        simp only
        rw [map_fst_filter]
        exact h.nodup.filter _
  | vpress ko => cases hs
  | vrelease ko => cases hs

theorem State.Holding.inputs {n : Nat} {j l : Nat} (hfit : ∀ p ∈ layout, p.Fits n)
    (hsp : ∀ (x : Nat) p, layout[x]? = some p → x ≠ j → p.Spares l) (es : List InputEvent) {s s' : State} (h : s.Holding n j l)
    (he : .release j ∉ es) (hs : s.inputs layout es = some s') : s'.Holding n j l := by
  induction es generalizing s with
  | nil => cases hs; exact h
  | cons e es ih =>
    simp only [List.mem_cons, not_or] at he
    obtain ⟨s1, h1, h2⟩ := Option.bind_eq_some_iff.1 hs
    exact ih (h.input hfit hsp (Ne.symm he.1) h1) he.2 h2

/-- Releasing the key turns the layer off. -/
theorem State.Holding.off {n : Nat} {s : State} {j l : Nat} (h : s.Holding n j l) (hl : l ≤ s.layers.length) :
    (s.release j).layers[l - 1]? = some .off := by
  have hf : s.held.find? (fun p => p.1 == j) = some (j, .cell (.hold l)) := by
    cases hx : s.held.find? (fun p => p.1 == j) with
    | none =>
      have := List.find?_eq_none.1 hx _ h.mem
      simp at this
    | some p =>
      have hm := List.mem_of_find?_eq_some hx
      have hp : p.1 = j := by simpa using List.find?_some hx
      by_cases ht : p = (j, .cell (.hold l))
      · rw [ht]
      · exfalso
        have hnd : ∀ (xs : List (Nat × Act)), (xs.map Prod.fst).Nodup → ∀ a ∈ xs, ∀ b ∈ xs, a.1 = b.1 → a = b := by
          intro xs
          induction xs with
          | nil => intro _ a ha; cases ha
          | cons x xs ih =>
            intro hnd a ha b hb hab
            simp only [List.map_cons, List.nodup_cons] at hnd
            rcases List.mem_cons.1 ha with rfl | ha'
            · rcases List.mem_cons.1 hb with rfl | hb'
              · rfl
              · exact absurd (List.mem_map.2 ⟨b, hb', hab.symm⟩) hnd.1
            · rcases List.mem_cons.1 hb with rfl | hb'
              · exact absurd (List.mem_map.2 ⟨a, ha', hab⟩) hnd.1
              · exact ih hnd.2 a ha' b hb' hab
        exact ht (hnd _ h.nodup p hm _ h.mem hp)
  have hp := h.pos
  simp only [State.release, hf, Act.release, State.turn, List.getElem?_set]
  rw [if_pos trivial, if_pos (by rw [used_length]; omega)]

/-- A sticky layer key is pressed: it waits for another key. -/
theorem press_oneShot {s : State} {j l : Nat} {p : Pos} (h : s.Calm l) (hl : s.held.length < 16) (hj : layout[j]? = some p)
    (hh : s.holds j = false) (hp : p.pick s = .oneShot l) : s.press layout j = some ((s.add j (.oneShot l)).armed l none) := by
  simp only [State.press, hh, use_calm h.once, interrupt_calm h.shots, Bool.false_eq_true, if_false, if_pos hl, hj, Option.map_some, hp]
  rfl

theorem holdAll_snoc (s : State) (ps : List (Nat × Act)) (j l : Nat) : s.holdAll (ps ++ [(j, .oneShot l)]) = (s.holdAll ps).turn l .on := by
  induction ps generalizing s with
  | nil => rfl
  | cons p ps ih =>
    obtain ⟨i, a⟩ := p
    cases a with
    | cell c => exact ih s
    | oneShot l' => exact ih _

theorem holdAll_length (s : State) (ps : List (Nat × Act)) : (s.holdAll ps).layers.length = s.layers.length := by
  induction ps generalizing s with
  | nil => rfl
  | cons p ps ih =>
    obtain ⟨i, a⟩ := p
    cases a with
    | cell c => exact ih s
    | oneShot l' => rw [State.holdAll, ih]; simp [State.turn]

/-- A sticky layer key held when another key is pressed holds its layer. -/
theorem interrupt_holding {s : State} {j l : Nat} (k : Nat) (h : s.Calm l) (hh : s.holds j = false) (ho : ∀ p ∈ s.held, p.2.touches l = false)
    (hnd : (s.held.map Prod.fst).Nodup) : ((((s.add j (.oneShot l)).armed l none).use k).interrupt).Holding s.layers.length j l := by
  have hheld := interrupt_held ((s.add j (.oneShot l)).armed l none) k
  rw [show ((s.add j (.oneShot l)).armed l none).held = s.held ++ [(j, Act.oneShot l)] from rfl, List.map_append] at hheld
  refine ⟨?_, ?_, ?_, ?_, ?_, h.range.1⟩
  · rw [hheld]; simp [Act.interrupt]
  · simp only [State.interrupt, use_held]
    rw [show ((s.add j (.oneShot l)).armed l none).held = s.held ++ [(j, Act.oneShot l)] from rfl, holdAll_snoc]
    simp only [State.turn, List.getElem?_set]
    have := h.range
    rw [if_pos trivial, if_pos]
    rw [holdAll_length, use_length]
    simp only [State.armed, State.turn, State.add, List.length_set]
    omega
  · rw [hheld]
    intro p hp hne
    rcases List.mem_append.1 hp with hp | hp
    · obtain ⟨q, hq, rfl⟩ := List.mem_map.1 hp
      exact interrupt_touches (ho q hq)
    · simp only [List.map_cons, List.map_nil, List.mem_cons, List.not_mem_nil, or_false] at hp
      subst hp
      exact absurd rfl hne
  · rw [hheld]
    intro p hp
    rcases List.mem_append.1 hp with hp | hp
    · obtain ⟨q, hq, rfl⟩ := List.mem_map.1 hp
      exact act_interrupt_fits (h.fits q hq)
    · simp only [List.map_cons, List.map_nil, List.mem_cons, List.not_mem_nil, or_false] at hp
      subst hp
      exact h.range
  · rw [hheld, List.map_append, map_fst_interrupt, List.nodup_append]
    refine ⟨hnd, by simp, ?_⟩
    intro x hx y hy
    have : y = j := by simpa using hy
    subst this
    rintro rfl
    have := oholds_iff.2 hx
    rw [hh] at this
    cases this

theorem release_touches {s : State} {l : Nat} (i : Nat) (h : ∀ p ∈ s.held, p.2.touches l = false) : ∀ p ∈ (s.release i).held, p.2.touches l = false := by
  intro p hp
  simp only [State.release] at hp
  split at hp
  · rw [act_release_held] at hp
    exact h p (List.mem_filter.1 hp).1
  · rw [used_held] at hp
    exact h p hp

theorem releases_touches {s : State} {l : Nat} (is : List Nat) (h : ∀ p ∈ s.held, p.2.touches l = false) :
    ∀ p ∈ (s.releases is).held, p.2.touches l = false := by
  induction is generalizing s with
  | nil => exact h
  | cons i is ih => exact ih (release_touches i h)

theorem release_nodup {s : State} (i : Nat) (h : (s.held.map Prod.fst).Nodup) : ((s.release i).held.map Prod.fst).Nodup := by
  simp only [State.release]
  split
  · rw [act_release_held]
    simp only
    rw [map_fst_filter]
    exact h.filter _
  · rw [used_held]; exact h

theorem releases_nodup {s : State} (is : List Nat) (h : (s.held.map Prod.fst).Nodup) : ((s.releases is).held.map Prod.fst).Nodup := by
  induction is generalizing s with
  | nil => exact h
  | cons i is ih => exact ih (release_nodup i h)

theorem release_layers_length (s : State) (i : Nat) : (s.release i).layers.length = s.layers.length := by
  simp only [State.release]
  split
  · rw [act_release_length]
    exact used_length s i
  · exact used_length s i

theorem releases_layers_length (s : State) (is : List Nat) : (s.releases is).layers.length = s.layers.length := by
  induction is generalizing s with
  | nil => rfl
  | cons i is ih => exact (ih _).trans (release_layers_length s i)

/-! ## What a key outputs -/

theorem highest_top {α : Type} : ∀ {on : List Bool} {cs : List (Option α)} {i : Nat} {c : α} (_ : on[i]? = some true) (_ : cs[i]? = some (some c))
    (_ : ∀ (m : Nat) c', cs[m]? = some (some c') → m ≤ i), Board.highest on cs = some c
  | [], _, _, _, h, _, _ => by simp at h
  | _ :: _, [], _, _, _, h, _ => by simp at h
  | b :: bs, o :: cs, 0, c, h1, h2, h3 => by
    simp only [List.getElem?_cons_zero, Option.some.injEq] at h1 h2
    subst h1 h2
    have : Board.highest bs cs = none := by
      cases hx : Board.highest bs cs with
      | none => rfl
      | some c' =>
        obtain ⟨m, hm⟩ := List.getElem?_of_mem (highest_mem hx)
        have := h3 (m + 1) c' hm
        omega
    simp only [Board.highest, this, if_true]
  | b :: bs, o :: cs, i + 1, c, h1, h2, h3 => by
    have := highest_top (on := bs) (cs := cs) (i := i) (c := c) h1 h2 (fun m c' hm => by
      have := h3 (m + 1) c' hm
      omega)
    simp only [Board.highest, this]

theorem highest_off {α : Type} : ∀ {on : List Bool} {cs : List (Option α)} {i : Nat} (_ : on[i]? ≠ some true)
    (_ : ∀ (m : Nat) c', cs[m]? = some (some c') → m = i), Board.highest on cs = none
  | [], [], _, _, _ => rfl
  | [], _ :: _, _, _, _ => rfl
  | _ :: _, [], _, _, _ => rfl
  | b :: bs, o :: cs, 0, h1, h2 => by
    have : Board.highest bs cs = none := by
      cases hx : Board.highest bs cs with
      | none => rfl
      | some c' =>
        obtain ⟨m, hm⟩ := List.getElem?_of_mem (highest_mem hx)
        have := h2 (m + 1) c' hm
        omega
    simp only [Board.highest, this]
    rw [if_neg]
    simpa using h1
  | b :: bs, o :: cs, i + 1, h1, h2 => by
    have := highest_off (on := bs) (cs := cs) (i := i) (by simpa using h1) (fun m c' hm => by
      have := h2 (m + 1) c' hm
      omega)
    have ho : o = none := by
      cases o with
      | none => rfl
      | some c' =>
        have := h2 0 c' rfl
        omega
    simp only [Board.highest, this, ho]
    split <;> rfl

theorem on_get (s : State) (i : Nat) : s.on[i]? = (s.layers[i]?).map fun x => decide (x ≠ .off) := by
  rw [State.on, List.getElem?_map]

/-- A key on an active layer, with nothing above it. -/
theorem pick_top {s : State} {base a : Act} {as : List (Option Act)} {l : Nat} (h : s.layers[l - 1]? = some .on) (ha : as[l - 1]? = some (some a))
    (htop : ∀ (m : Nat) c', as[m]? = some (some c') → m ≤ l - 1) : (Pos.layered base as).pick s = a := by
  simp only [Pos.pick, Board.lookup, highest_top (on := s.on) (by rw [on_get, h]; rfl) ha htop]

/-- A position with a key on layer `l` only, and layer `l` is off. -/
theorem pick_base {s : State} {base : Act} {as : List (Option Act)} {l : Nat} (h : s.layers[l - 1]? = some .off)
    (hone : ∀ (m : Nat) c', as[m]? = some (some c') → m = l - 1) (hd : ∀ d, s.dflt = some d → d - 1 ≠ l - 1) : (Pos.layered base as).pick s = base := by
  simp only [Pos.pick, Board.lookup, highest_off (on := s.on) (by rw [on_get, h]; simp) hone]
  cases hx : s.dflt with
  | none => rfl
  | some d =>
    simp only [Option.bind_some]
    cases hy : as[d - 1]? with
    | none => rfl
    | some o =>
      cases o with
      | none => rfl
      | some c' => exact absurd (hone _ _ hy) (hd d hx)

theorem use_off {s : State} {l : Nat} (h : s.layers[l - 1]? = some .off) (i : Nat) : (s.use i).layers[l - 1]? = some .off := by
  have key : ∀ l', (s.layers.set (l' - 1) .off)[l - 1]? = some .off := by
    intro l'
    rw [List.getElem?_set]
    split
    · rename_i e
      rw [if_pos (by rw [e]; exact (List.getElem?_eq_some_iff.1 h).1)]
    · exact h
  unfold State.use
  split
  · exact h
  · split
    · exact key _
    · exact h

theorem interrupt_outputs (s : State) (i : Nat) : ((s.use i).interrupt).outputs = s.outputs := by
  simp only [State.outputs, interrupt_held, List.filterMap_map]
  have : ((fun p : Nat × Act => p.2.output) ∘ fun p : Nat × Act => (p.1, p.2.interrupt)) = fun p : Nat × Act => p.2.output := by
    funext p
    obtain ⟨k, a⟩ := p
    cases a <;> rfl
  rw [this]

/-- A plain key is pressed: its output comes last. -/
theorem press_outputs {s : State} {x : Nat} {p : Pos} {ko : KeyOutput} (hx : layout[x]? = some p) (hh : s.holds x = false)
    (hl : s.held.length < 16) (hp : p.pick (s.use x) = .cell (.out ko)) :
    ∃ s', s.press layout x = some s' ∧ s'.outputs = s.outputs ++ [ko] := by
  refine ⟨(s.use x).interrupt.add x (.cell (.out ko)), ?_, ?_⟩
  · simp only [State.press, hh, Bool.false_eq_true, if_false, if_pos hl, hx, Option.map_some, hp, Act.press]
    rfl
  have := interrupt_outputs s x
  simp only [State.outputs, State.add] at this ⊢
  rw [List.filterMap_append, this]
  rfl

end Verif.OneShot
