import Verif.Lemmas.Composite

/-! # References between keys -/

namespace Verif.Comp

/-- `r'` is written in the table entry of `r`: the keys `r` can stand for. -/
inductive Child (K : Keys) : Ref → Ref → Prop where
  | base {i k} : K.layered[i]? = some k → Child K (.layered (.layered i)) k.base
  | layer {i k r} : K.layered[i]? = some k → some r ∈ k.layered → Child K (.layered (.layered i)) r
  | tap {i k} : K.tapHold[i]? = some k → Child K (.tapHold i) k.tap
  | hold {i k} : K.tapHold[i]? = some k → Child K (.tapHold i) k.hold
  | tapDance {i k r} : K.tapDance[i]? = some k → some r ∈ k.definitions → Child K (.tapDance i) r
  | chord {i k id r} : K.chorded[i]? = some k → (id, r) ∈ k.chords → Child K (.chorded (.chorded i)) r
  | passthrough {i k} : K.chorded[i]? = some k → Child K (.chorded (.chorded i)) k.passthrough
  | aux {i r} : K.chordedAux[i]? = some r → Child K (.chorded (.auxiliary i)) r

/-- `r'` is reached from `r` by following table entries, in any number of steps. -/
inductive Leads (K : Keys) : Ref → Ref → Prop where
  | refl (r) : Leads K r r
  | step {r r' r''} : Child K r r' → Leads K r' r'' → Leads K r r''

theorem firstActive_mem {R : Type} {layered : List (Option R)} {ls : List Nat} {r : R}
    (h : Layered.firstActive layered ls = .ok (some r)) : some r ∈ layered := by
  induction ls with
  | nil => simp [Layered.firstActive] at h
  | cons l ls ih =>
    simp only [Layered.firstActive, Res.bind_eq_ok] at h
    obtain ⟨o, h1, h2⟩ := h
    cases o with
    | none => exact ih h2
    | some r' =>
      simp only [Res.pure_eq, Res.ok.injEq, Option.some.injEq] at h2
      subst h2
      exact List.mem_of_getElem? (Res.index_eq_ok.1 h1)

theorem layeredKey_mem {R : Type} {k : Layered.LayeredKey R} {c : Layered.Ctx} {r : R}
    (h : k.newPressedKey c = .ok r) : r = k.base ∨ some r ∈ k.layered := by
  simp only [Layered.LayeredKey.newPressedKey, Res.bind_eq_ok, Res.pure_eq, Res.ok.injEq] at h
  obtain ⟨o, h1, rfl⟩ := h
  cases o with
  | none => simp
  | some r =>
    right
    simp only [Layered.highestActiveKey, Res.bind_eq_ok] at h1
    obtain ⟨o, h1, h2⟩ := h1
    cases o with
    | some r' =>
      simp only [Res.pure_eq, Res.ok.injEq, Option.some.injEq] at h2
      subst h2
      exact firstActive_mem h1
    | none =>
      cases hd : c.defaultLayer with
      | none => simp [hd] at h2
      | some l =>
        simp only [hd] at h2
        exact List.mem_of_getElem? (Res.index_eq_ok.1 h2)

theorem refFor_child {K : Keys} {i : Nat} {k : Chorded.Key Ref} {c : Chorded.Ctx} {idx : Nat}
    {x : Chorded.Resolution} {r : Ref} (hk : K.chorded[i]? = some k) (h : k.refFor c idx x = .ok (.key r)) :
    Child K (.chorded (.chorded i)) r := by
  cases x with
  | passthrough =>
    simp only [Chorded.Key.refFor, Res.ok.injEq, NPK.key.injEq] at h
    subst h; exact .passthrough hk
  | chord id =>
    simp only [Chorded.Key.refFor] at h
    split at h
    · simp only [Res.bind_eq_ok] at h
      obtain ⟨first, _, h2⟩ := h
      split at h2
      · split at h2
        · rename_i y hf
          simp only [Res.pure_eq, Res.ok.injEq, NPK.key.injEq] at h2
          subst h2
          exact .chord hk (List.mem_of_find?_eq_some hf)
        · simp at h2
      · simp at h2
    · simp at h

theorem auxRefFor_child {K : Keys} {i : Nat} {pt r : Ref} {x : Chorded.Resolution} (hk : K.chordedAux[i]? = some pt)
    (h : Chorded.auxRefFor pt x = .key r) : Child K (.chorded (.auxiliary i)) r := by
  cases x <;> simp [Chorded.auxRefFor] at h
  subst h; exact .aux hk

/-- Pressing a key that stands for another one gives one of its children. -/
theorem npk_child {K : Keys} {idx : Nat} {c : Ctx} {r r' : Ref} {es : KeyEvents Ev}
    (h : newPressedKey K idx c r = .ok (.newPressedKey (.key r'), es)) : Child K r r' := by
  cases r with
  | layered l =>
    simp only [newPressedKey, Res.bind_eq_ok, Res.pure_eq, Res.ok.injEq, Prod.mk.injEq] at h
    obtain ⟨⟨p, es⟩, h1, h2, _⟩ := h
    cases l with
    | modifier j =>
      simp only [Layered.sysNewPressedKey, Res.bind_eq_ok, Res.pure_eq, Res.ok.injEq, Prod.mk.injEq] at h1
      obtain ⟨k, h1, rfl, _⟩ := h1
      simp at h2
    | layered j =>
      simp only [Layered.sysNewPressedKey, Res.bind_eq_ok, Res.pure_eq, Res.ok.injEq, Prod.mk.injEq] at h1
      obtain ⟨k, h1, r2, h3, rfl, _⟩ := h1
      simp only [PKR.newPressedKey.injEq, NPK.key.injEq] at h2
      subst h2
      rcases layeredKey_mem h3 with rfl | h3
      · exact .base (Res.index_eq_ok.1 h1)
      · exact .layer (Res.index_eq_ok.1 h1) h3
  | chorded l =>
    simp only [newPressedKey, Res.bind_eq_ok, Res.pure_eq, Res.ok.injEq, Prod.mk.injEq] at h
    obtain ⟨⟨p, es⟩, h1, h2, _⟩ := h
    cases p with
    | pending p => simp at h2
    | npk n =>
      simp only [PKR.newPressedKey.injEq] at h2
      subst h2
      cases l with
      | chorded j =>
        simp only [Chorded.sysNewPressedKey, Chorded.Key.newPressedKey, Res.bind_eq_ok] at h1
        obtain ⟨k, h1, x, h2, h3⟩ := h1
        cases x with
        | inl x =>
          simp only [Res.bind_eq_ok, Res.pure_eq, Res.ok.injEq, Prod.mk.injEq, Chorded.Pressed.npk.injEq] at h3
          obtain ⟨n, h3, rfl, _⟩ := h3
          exact refFor_child (Res.index_eq_ok.1 h1) h3
        | inr x => simp at h3
      | auxiliary j =>
        simp only [Chorded.sysNewPressedKey, Chorded.auxNewPressedKey, Res.bind_eq_ok] at h1
        obtain ⟨k, h1, x, h2, h3⟩ := h1
        cases x with
        | inl x =>
          simp only [Res.pure_eq, Res.ok.injEq, Prod.mk.injEq, Chorded.Pressed.npk.injEq] at h3
          exact auxRefFor_child (Res.index_eq_ok.1 h1) h3.1
        | inr x => simp at h3
  | tapHold j =>
    simp only [newPressedKey, Res.bind_eq_ok, Res.pure_eq, Res.ok.injEq, Prod.mk.injEq] at h
    obtain ⟨⟨p, es⟩, h1, h2, _⟩ := h
    cases p with
    | pending p => simp at h2
    | key r2 =>
      simp only [PKR.newPressedKey.injEq, NPK.key.injEq] at h2
      subst h2
      unfold TapHold.newPressedKey at h1
      split at h1
      · split at h1
        · simp at h1
        · simp only [Res.bind_eq_ok, Res.pure_eq, Res.ok.injEq, Prod.mk.injEq, TapHold.Pressed.key.injEq] at h1
          obtain ⟨k, h1, rfl, _⟩ := h1
          exact .tap (Res.index_eq_ok.1 h1)
      · simp at h1
  | automation i =>
    simp only [newPressedKey, Res.bind_eq_ok, Res.pure_eq, Res.ok.injEq, Prod.mk.injEq] at h
    obtain ⟨_, _, h, _⟩ := h
    simp at h
  | callback i =>
    simp only [newPressedKey, Res.bind_eq_ok, Res.pure_eq, Res.ok.injEq, Prod.mk.injEq] at h
    obtain ⟨_, _, h, _⟩ := h
    simp at h
  | sticky i =>
    simp only [newPressedKey, Res.bind_eq_ok, Res.pure_eq, Res.ok.injEq, Prod.mk.injEq] at h
    obtain ⟨_, _, h, _⟩ := h
    simp at h
  | _ => simp [newPressedKey] at h

/-- Which keys may wait for a decision. -/
theorem npk_pending {K : Keys} {idx : Nat} {c : Ctx} {r : Ref} {p : PKS} {es : KeyEvents Ev}
    (h : newPressedKey K idx c r = .ok (.pending p, es)) :
    (∃ i q, r = .tapHold i ∧ p = .tapHold q) ∨ (∃ i q, r = .tapDance i ∧ p = .tapDance q) ∨
      (∃ l q, r = .chorded l ∧ p = .chorded q) := by
  cases r with
  | tapHold j =>
    simp only [newPressedKey, Res.bind_eq_ok, Res.pure_eq, Res.ok.injEq, Prod.mk.injEq] at h
    obtain ⟨⟨p, es⟩, h1, h2, _⟩ := h
    cases p with
    | pending p => simp only [PKR.pending.injEq] at h2; subst h2; simp
    | key r2 => simp at h2
  | chorded l =>
    simp only [newPressedKey, Res.bind_eq_ok, Res.pure_eq, Res.ok.injEq, Prod.mk.injEq] at h
    obtain ⟨⟨p, es⟩, h1, h2, _⟩ := h
    cases p with
    | pending p => simp only [PKR.pending.injEq] at h2; subst h2; simp
    | npk n => simp at h2
  | tapDance j =>
    simp only [newPressedKey, Res.ok.injEq, Prod.mk.injEq, PKR.pending.injEq] at h
    rw [← h.1]; simp
  | layered l =>
    simp only [newPressedKey, Res.bind_eq_ok, Res.pure_eq, Res.ok.injEq, Prod.mk.injEq] at h
    obtain ⟨⟨p, es⟩, h1, h2, _⟩ := h
    cases p <;> simp at h2
  | automation i =>
    simp only [newPressedKey, Res.bind_eq_ok, Res.pure_eq, Res.ok.injEq, Prod.mk.injEq] at h
    obtain ⟨_, _, h, _⟩ := h
    simp at h
  | callback i =>
    simp only [newPressedKey, Res.bind_eq_ok, Res.pure_eq, Res.ok.injEq, Prod.mk.injEq] at h
    obtain ⟨_, _, h, _⟩ := h
    simp at h
  | sticky i =>
    simp only [newPressedKey, Res.bind_eq_ok, Res.pure_eq, Res.ok.injEq, Prod.mk.injEq] at h
    obtain ⟨_, _, h, _⟩ := h
    simp at h
  | _ => simp [newPressedKey] at h

/-- Deciding a pending key gives one of its children (or no key). -/
theorem pend_child {K : Keys} {p p' : PKS} {idx : Nat} {c : Ctx} {r r' : Ref} {ev : Event Ev} {es : KeyEvents Ev}
    (h : updatePending K p idx c r ev = .ok (p', some (.key r'), es)) : Child K r r' := by
  unfold updatePending at h
  split at h
  · rename_i l q
    split at h
    · rename_i ev' _
      simp only [Res.bind_eq_ok, Res.pure_eq, Res.ok.injEq, Prod.mk.injEq] at h
      obtain ⟨⟨q', n, es'⟩, h1, _, rfl, _⟩ := h
      cases l with
      | chorded j =>
        simp only [Chorded.sysUpdatePending, Chorded.Key.updatePending, Res.bind_eq_ok] at h1
        obtain ⟨k, h1, ⟨p2, x⟩, h2, h3⟩ := h1
        cases x with
        | none => simp at h3
        | some x =>
          simp only [Res.bind_eq_ok, Res.pure_eq, Res.ok.injEq, Prod.mk.injEq, Option.some.injEq] at h3
          obtain ⟨n, h3, _, rfl, _⟩ := h3
          exact refFor_child (Res.index_eq_ok.1 h1) h3
      | auxiliary j =>
        simp only [Chorded.sysUpdatePending, Chorded.auxUpdatePending, Res.bind_eq_ok] at h1
        obtain ⟨k, h1, ⟨p2, x⟩, h2, h3⟩ := h1
        cases x with
        | none => simp at h3
        | some x =>
          simp only [Res.pure_eq, Res.ok.injEq, Prod.mk.injEq, Option.some.injEq] at h3
          exact auxRefFor_child (Res.index_eq_ok.1 h1) h3.2.1
    · simp at h
  · split at h
    · simp only [Res.bind_eq_ok, Res.pure_eq, Res.ok.injEq, Prod.mk.injEq] at h
      obtain ⟨⟨q', n, es'⟩, h1, _, rfl, _⟩ := h
      simp only [TapDance.updatePending, Res.bind_eq_ok] at h1
      obtain ⟨k, h1, ⟨p2, x, es2⟩, h2, h3⟩ := h1
      have hk := Res.index_eq_ok.1 h1
      cases x with
      | some n =>
        simp only [Res.bind_eq_ok, Res.pure_eq, Res.ok.injEq, Prod.mk.injEq, Option.some.injEq, NPK.key.injEq] at h3
        obtain ⟨d, h3, r2, h4, _, rfl, _⟩ := h3
        rw [Res.unwrap_eq_ok] at h4
        subst h4
        exact .tapDance hk (List.mem_of_getElem? (Res.index_eq_ok.1 h3))
      | none =>
        simp only at h3
        split at h3
        · simp at h3
        · split at h3
          · simp only [Res.bind_eq_ok, Res.pure_eq, Res.ok.injEq, Prod.mk.injEq, Option.some.injEq, NPK.key.injEq] at h3
            obtain ⟨d, h3, r2, h4, _, rfl, _⟩ := h3
            rw [Res.unwrap_eq_ok] at h4
            subst h4
            exact .tapDance hk (List.mem_of_getElem? (Res.index_eq_ok.1 h3))
          · simp at h3
    · simp at h
  · split at h
    · simp only [Res.bind_eq_ok, Res.pure_eq, Res.ok.injEq, Prod.mk.injEq] at h
      obtain ⟨⟨q', n, es'⟩, h1, _, rfl, _⟩ := h
      simp only [TapHold.updatePending] at h1
      split at h1
      · rename_i st _
        simp only [Res.bind_eq_ok, Res.pure_eq, Res.ok.injEq, Prod.mk.injEq, Option.some.injEq, NPK.key.injEq] at h1
        obtain ⟨k, h1, _, rfl, _⟩ := h1
        cases st
        · exact .tap (Res.index_eq_ok.1 h1)
        · exact .hold (Res.index_eq_ok.1 h1)
      · simp at h1
    · simp at h
  · simp at h

end Verif.Comp
