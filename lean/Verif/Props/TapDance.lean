import Verif.Composite
import Verif.Lemmas.List

/-!
# C25 and C26: which key a tap-dance key becomes
-/

namespace Verif.TapDance

variable {R : Type}

/-! ## Specification -/

/-- What becomes of tap-dance key `i` that waits in state `p` while the events `evs` arrive: the first
resolution. -/
def dance (keys : List (Key R)) (idx : Nat) (c : Config) (i : Nat) : PKS → List (Event Ev) → Res (Option (NPK R))
  | _, [] => .ok none
  | p, e :: es =>
    match updatePending keys p idx c i e with
    | .ok (_, some n, _) => .ok (some n)
    | .ok (p', none, _) => dance keys idx c i p' es
    | .panic x => .panic x
    | .fuel => .fuel

/-- The number of presses of the key among these events (after the first press, which made it wait). -/
def taps (idx : Nat) (es : List (Event Ev)) : Nat := es.countP (fun e => decide (e = .input (.press idx)))

/-- A key with `n` definitions is decided by event `e` after the events `pre`: the timeout belonging to
the latest press came, or the last definition is reached. -/
def Ends (n idx : Nat) (pre : List (Event Ev)) (e : Event Ev) : Prop :=
  e = .key idx (.nextPressTimeout (taps idx pre)) ∨ n ≤ taps idx (pre ++ [e]) + 1

instance (n idx : Nat) (pre : List (Event Ev)) (e : Event Ev) : Decidable (Ends n idx pre e) := by unfold Ends; infer_instance

/-- The definitions of a key: `defs`, then empty places. -/
def Defines (keys : List (Key R)) (i : Nat) (defs : List R) : Prop :=
  ∃ k m, keys[i]? = some k ∧ k.definitions = defs.map some ++ List.replicate m none

/-! ## Proofs -/

theorem taps_snoc_press (idx : Nat) (pre : List (Event Ev)) : taps idx (pre ++ [.input (.press idx)]) = taps idx pre + 1 := by
  simp [taps]

theorem taps_snoc_other (idx : Nat) (pre : List (Event Ev)) (e : Event Ev) (h : e ≠ .input (.press idx)) :
    taps idx (pre ++ [e]) = taps idx pre := by
  simp [taps, h]

theorem count_defs (defs : List R) (m : Nat) :
    (⟨defs.map some ++ List.replicate m none⟩ : Key R).definitionCount = defs.length := by
  simp only [Key.definitionCount, List.countP_append, List.countP_map]
  rw [List.countP_eq_length.2 (by simp), List.countP_eq_zero.2]
  · omega
  · intro x hx
    simp only [List.mem_replicate] at hx
    simp [hx.2]

theorem defs_get (defs : List R) (m j : Nat) (hj : j < defs.length) :
    (defs.map some ++ List.replicate m none)[j]? = some (some defs[j]) := by
  rw [List.getElem?_append_left (by simpa using hj)]
  simp [hj]

/-- One event, in terms of the specification. -/
theorem updatePending_spec {keys : List (Key R)} {i : Nat} {defs : List R} (hd : Defines keys i defs) (hn : 0 < defs.length)
    (hn' : defs.length ≤ 256) (idx : Nat) (c : Config) (pre : List (Event Ev)) (e : Event Ev) (ht : taps idx pre + 1 < defs.length ∨ pre = []) :
    ∃ es, updatePending keys ⟨taps idx pre⟩ idx c i e =
      .ok (⟨taps idx (pre ++ [e])⟩,
        (if Ends defs.length idx pre e then
          some (.key (defs[min (taps idx (pre ++ [e])) (defs.length - 1)]'(by omega))) else none), es) := by
  obtain ⟨k, m, hk, hkd⟩ := hd
  have hcount : k.definitionCount = defs.length := by
    have := count_defs defs m
    unfold Key.definitionCount at *
    rw [hkd]; exact this
  have ht0 : taps idx pre < defs.length := by
    rcases ht with h | rfl
    · omega
    · simpa [taps] using hn
  have idxk : Res.index keys i = .ok k := by simp [hk]
  have get : ∀ j (hj : j < defs.length), Res.index k.definitions j = .ok (some defs[j]) := by
    intro j hj; rw [hkd]; simp only [Res.index_eq_ok]; exact defs_get defs m j hj
  -- the common end: no decision by timeout
  have fin : ∀ (t : Nat) (es : KeyEvents Ev), t = taps idx (pre ++ [e]) → e ≠ .key idx (.nextPressTimeout (taps idx pre)) →
      (t ≤ defs.length - 1 ∨ defs.length = 1) →
      (if k.definitionCount = 0 then (.panic .arith : Res (PKS × Option (NPK R) × KeyEvents Ev))
       else if t ≥ k.definitionCount - 1 then do
         let d ← Res.index k.definitions (k.definitionCount - 1)
         let r ← Res.unwrap d
         pure (⟨t⟩, some (.key r), es)
       else .ok (⟨t⟩, none, es)) =
      .ok (⟨taps idx (pre ++ [e])⟩,
        (if Ends defs.length idx pre e then
          some (.key (defs[min (taps idx (pre ++ [e])) (defs.length - 1)]'(by omega))) else none), es) := by
    intro t es ht2 hne hle
    rw [hcount, if_neg (by omega)]
    subst ht2
    by_cases hge : taps idx (pre ++ [e]) ≥ defs.length - 1
    · have hE : Ends defs.length idx pre e := Or.inr (by omega)
      rw [if_pos hge, get _ (by omega), if_pos hE]
      have : min (taps idx (pre ++ [e])) (defs.length - 1) = defs.length - 1 := by omega
      simp only [Res.ok_bind, Res.unwrap, Res.pure_eq, this]
    · rw [if_neg hge, if_neg]
      rintro (h | h)
      · exact hne h
      · omega
  by_cases he : e = .input (.press idx)
  · subst he
    have hs := taps_snoc_press idx pre
    refine ⟨[SchEv.after c.timeout (.key idx (.nextPressTimeout (taps idx pre + 1)))], ?_⟩
    unfold updatePending PKS.handleEvent
    rw [idxk]
    simp only [Res.ok_bind, if_true]
    have h256 : taps idx pre + 1 < 256 := by
      rcases ht with h | rfl
      · omega
      · simp [taps]
    rw [if_pos h256]
    simp only [Res.ok_bind]
    refine fin _ _ hs.symm (by simp) ?_
    rcases ht with h | rfl
    · omega
    · simp [taps]; omega
  · have hs := taps_snoc_other idx pre e he
    refine ⟨[], ?_⟩
    by_cases hto : e = .key idx (.nextPressTimeout (taps idx pre))
    · have hE : Ends defs.length idx pre e := Or.inl hto
      rw [if_pos hE]
      have hup : updatePending keys ⟨taps idx pre⟩ idx c i e =
          .ok (⟨taps idx pre⟩, some (.key defs[taps idx pre]), []) := by
        subst hto
        simp only [updatePending, PKS.handleEvent, idxk, Res.ok_bind, and_self, if_true, get _ ht0, Res.unwrap, Res.pure_eq]
      rw [hup]
      have hm2 : min (taps idx pre) (defs.length - 1) = taps idx pre := by omega
      simp only [hs, hm2]
    · unfold updatePending
      rw [idxk]
      simp only [Res.ok_bind]
      have hnone : PKS.handleEvent ⟨taps idx pre⟩ c idx e = .ok (⟨taps idx pre⟩, none, []) := by
        unfold PKS.handleEvent
        rcases e with (k | _ | _ | _) | ⟨k, x⟩ | _
        · simp only
          rw [if_neg (fun h => he (by rw [h]))]
        · rfl
        · rfl
        · rfl
        · cases x with
          | nextPressTimeout x =>
            simp only
            rw [if_neg]
            rintro ⟨rfl, rfl⟩
            exact hto rfl
        · rfl
      rw [hnone]
      simp only [Res.ok_bind]
      refine fin _ _ hs.symm hto ?_
      left; omega

/-! ## The theorems -/

/-- C25: a tap-dance key with the definitions `defs` becomes definition number `min t (n - 1)` at the first
event that ends the dance, `t` being the number of further presses up to then. -/
theorem C25_resolves {keys : List (Key R)} {i : Nat} {defs : List R} (hd : Defines keys i defs) (hn : 0 < defs.length)
    (hn' : defs.length ≤ 256) (idx : Nat) (c : Config) (pre post : List (Event Ev)) (e : Event Ev)
    (he : Ends defs.length idx pre e) (hfirst : ∀ p1 x p2, pre = p1 ++ x :: p2 → ¬ Ends defs.length idx p1 x) :
    dance keys idx c i (newPressedKey c idx).1 (pre ++ e :: post) =
      .ok (some (.key (defs[min (taps idx (pre ++ [e])) (defs.length - 1)]'(by omega)))) := by
  have key : ∀ (mid done : List (Event Ev)), pre = done ++ mid →
      dance keys idx c i ⟨taps idx done⟩ (mid ++ e :: post) =
        .ok (some (.key (defs[min (taps idx (pre ++ [e])) (defs.length - 1)]'(by omega)))) := by
    intro mid
    induction mid with
    | nil =>
      intro done hpre
      rw [List.append_nil] at hpre
      subst hpre
      have hb : taps idx pre + 1 < defs.length ∨ pre = [] := by
        rcases List.eq_nil_or_concat pre with rfl | ⟨q, y, rfl⟩
        · exact Or.inr rfl
        · left
          have := hfirst q y [] (by simp [List.concat_eq_append])
          simp only [Ends, not_or, List.concat_eq_append] at this ⊢
          omega
      obtain ⟨es, h⟩ := updatePending_spec hd hn hn' idx c pre e hb
      rw [List.nil_append]
      unfold dance
      rw [h, if_pos he]
    | cons x mid ih =>
      intro done hpre
      have hb : taps idx done + 1 < defs.length ∨ done = [] := by
        rcases List.eq_nil_or_concat done with rfl | ⟨q, y, rfl⟩
        · exact Or.inr rfl
        · left
          have := hfirst q y (x :: mid) (by rw [hpre]; simp [List.concat_eq_append])
          simp only [Ends, not_or, List.concat_eq_append] at this ⊢
          omega
      obtain ⟨es, h⟩ := updatePending_spec hd hn hn' idx c done x hb
      rw [List.cons_append]
      unfold dance
      rw [h, if_neg (hfirst done x mid hpre)]
      exact ih (done ++ [x]) (by rw [hpre]; simp)
  exact key pre [] rfl

/-- C25: as long as no event ends the dance, the key stays undecided (and nothing panics). -/
theorem C25_undecided {keys : List (Key R)} {i : Nat} {defs : List R} (hd : Defines keys i defs) (hn : 0 < defs.length)
    (hn' : defs.length ≤ 256) (idx : Nat) (c : Config) (evs : List (Event Ev))
    (hno : ∀ p1 x p2, evs = p1 ++ x :: p2 → ¬ Ends defs.length idx p1 x) :
    dance keys idx c i (newPressedKey c idx).1 evs = .ok none := by
  have key : ∀ (mid done : List (Event Ev)), evs = done ++ mid → dance keys idx c i ⟨taps idx done⟩ mid = .ok none := by
    intro mid
    induction mid with
    | nil => intro done _; rfl
    | cons x mid ih =>
      intro done hpre
      have hb : taps idx done + 1 < defs.length ∨ done = [] := by
        rcases List.eq_nil_or_concat done with rfl | ⟨q, y, rfl⟩
        · exact Or.inr rfl
        · left
          have := hno q y (x :: mid) (by rw [hpre]; simp [List.concat_eq_append])
          simp only [Ends, not_or, List.concat_eq_append] at this ⊢
          omega
      obtain ⟨es, h⟩ := updatePending_spec hd hn hn' idx c done x hb
      unfold dance
      rw [h, if_neg (hno done x mid hpre)]
      exact ih (done ++ [x]) (by rw [hpre]; simp)
  exact key evs [] rfl

/-- C25: pressing the key starts the dance: it waits, with a timeout belonging to this press. -/
theorem C25_starts (c : Config) (idx : Nat) :
    newPressedKey c idx = (⟨taps idx []⟩, [SchEv.after c.timeout (.key idx (.nextPressTimeout (taps idx [])))]) := rfl

/-- C26: every further press of the key schedules exactly one timeout, labelled with that press; no other
event schedules any. -/
theorem C26_one_timeout_per_press {c : Config} {idx t : Nat} {e : Event Ev} {p : PKS} {r : Option Nat}
    {es : KeyEvents Ev} (h : PKS.handleEvent ⟨t⟩ c idx e = .ok (p, r, es)) :
    (e = .input (.press idx) → es = [SchEv.after c.timeout (.key idx (.nextPressTimeout (t + 1)))]) ∧
    (e ≠ .input (.press idx) → es = []) := by
  unfold PKS.handleEvent at h
  rcases e with (k | _ | _ | _) | ⟨k, x⟩ | _
  · simp only at h
    split at h
    · rename_i hk; subst hk
      split at h
      · simp only [Res.ok.injEq, Prod.mk.injEq] at h; simp [h.2.2.symm]
      · simp at h
    · rename_i hk
      simp only [Res.ok.injEq, Prod.mk.injEq] at h
      simp [h.2.2.symm, hk]
  · simp only [Res.ok.injEq, Prod.mk.injEq] at h; simp [h.2.2.symm]
  · simp only [Res.ok.injEq, Prod.mk.injEq] at h; simp [h.2.2.symm]
  · simp only [Res.ok.injEq, Prod.mk.injEq] at h; simp [h.2.2.symm]
  · cases x with
    | nextPressTimeout x =>
      simp only at h
      split at h <;> (simp only [Res.ok.injEq, Prod.mk.injEq] at h; simp [h.2.2.symm])
  · simp only [Res.ok.injEq, Prod.mk.injEq] at h; simp [h.2.2.symm]

/-- C26: while more definitions are to come, a timeout of an earlier press, or of another key, changes
nothing. -/
theorem C26_stale_timeout {keys : List (Key R)} {i : Nat} {defs : List R} (hd : Defines keys i defs)
    (hn' : defs.length ≤ 256) (idx : Nat) (c : Config) (pre : List (Event Ev)) (j m : Nat)
    (ht : taps idx pre + 1 < defs.length) (hstale : j ≠ idx ∨ m < taps idx pre) :
    ∃ es, updatePending keys ⟨taps idx pre⟩ idx c i (.key j (.nextPressTimeout m)) = .ok (⟨taps idx pre⟩, none, es) ∧ es = [] := by
  obtain ⟨es, h⟩ := updatePending_spec hd (by omega) hn' idx c pre (.key j (.nextPressTimeout m)) (Or.inl ht)
  have hE : ¬ Ends defs.length idx pre (.key j (.nextPressTimeout m)) := by
    rintro (h1 | h1)
    · simp only [Event.key.injEq, Ev.nextPressTimeout.injEq] at h1
      obtain ⟨rfl, rfl⟩ := h1
      rcases hstale with h | h
      · exact h rfl
      · omega
    · rw [taps_snoc_other _ _ _ (by simp)] at h1
      omega
  rw [if_neg hE] at h
  rw [taps_snoc_other _ _ _ (by simp)] at h
  · refine ⟨[], ?_, rfl⟩
    rw [h]
    have : es = [] := by
      unfold updatePending at h
      simp only [Res.bind_eq_ok] at h
      obtain ⟨k, _, ⟨p, r, es'⟩, h2, h3⟩ := h
      have e1 := (C26_one_timeout_per_press h2).2 (by simp)
      subst e1
      cases r with
      | some n =>
        simp only [Res.bind_eq_ok, Res.pure_eq, Res.ok.injEq, Prod.mk.injEq] at h3
        obtain ⟨_, _, _, _, _, _, h3⟩ := h3
        exact h3.symm
      | none =>
        simp only at h3
        split at h3
        · simp at h3
        · split at h3
          · simp only [Res.bind_eq_ok, Res.pure_eq, Res.ok.injEq, Prod.mk.injEq] at h3
            obtain ⟨_, _, _, _, _, _, h3⟩ := h3
            exact h3.symm
          · simp only [Res.ok.injEq, Prod.mk.injEq] at h3
            exact h3.2.2.symm
    rw [this]

/-! ## The hypotheses can be met -/

/-- Keys built by `Key::from_definitions` are of the required form. -/
theorem defines_fromDefinitions (max : Nat) (defs : List R) (h : defs.length ≤ max) :
    Defines [Key.fromDefinitions max defs] 0 defs :=
  ⟨_, max - defs.length, rfl, by simp [Key.fromDefinitions, List.take_of_length_le h]⟩

/-- Two presses, then the timeout of the second one: the second of three definitions. -/
example : dance [Key.fromDefinitions 3 [7, 8, 9]] 2 ⟨200⟩ 0 (newPressedKey ⟨200⟩ 2).1
    [.input (.release 2), .input (.press 2), .key 2 (.nextPressTimeout 0), .input (.press 5), .key 2 (.nextPressTimeout 1)] =
      .ok (some (.key 8)) := by decide

/-- Three presses: the third definition at once. -/
example : dance [Key.fromDefinitions 3 [7, 8, 9]] 2 ⟨200⟩ 0 (newPressedKey ⟨200⟩ 2).1
    [.input (.release 2), .input (.press 2), .input (.release 2), .input (.press 2)] = .ok (some (.key 9)) := by decide

/-- A table with a gap (which the array type allows) panics when the timeout hits the gap. -/
example : dance [⟨[some 7, none, some 9]⟩] 2 ⟨200⟩ 0 (newPressedKey ⟨200⟩ 2).1
    [.input (.press 2), .key 2 (.nextPressTimeout 1)] = .panic .unwrap := by decide

/-- A key without definitions panics at its first event. -/
example : dance [(⟨[none]⟩ : Key Nat)] 2 ⟨200⟩ 0 (newPressedKey ⟨200⟩ 2).1 [.input (.release 2)] = .panic .arith := by decide

end Verif.TapDance
