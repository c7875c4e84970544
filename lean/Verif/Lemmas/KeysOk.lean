import Verif.Lemmas.Composite

/-!
# Pressed keys of the aggregate key system

The state of a pressed key fits its reference, and the reference is in the key tables.
-/

namespace Verif.Comp

/-- The state fits the reference. -/
def KeyOk (K : Keys) (r : Ref) : KS → Prop
  | .noOp => True
  | .automation => ∃ i, r = .automation i ∧ i < K.automation.length
  | .consumer => ∃ c, r = .consumer c
  | .custom => ∃ c, r = .custom c
  | .keyboard => ∃ k, r = .keyboard k
  | .layerModifier _ => ∃ i, r = .layered (.modifier i) ∧ i < K.layerMods.length
  | .mouse => ∃ m, r = .mouse m
  | .sticky _ => ∃ i, r = .sticky i ∧ i < K.sticky.length

theorem index_lt {α : Type} {l : List α} {i : Nat} {x : α} (h : Res.index l i = .ok x) : i < l.length := by
  unfold Res.index at h
  split at h
  · rename_i y hy
    exact (List.getElem?_eq_some_iff.1 hy).1
  · simp at h

theorem index_get {α : Type} {l : List α} {i : Nat} (h : i < l.length) : Res.index l i = .ok l[i] := by
  simp [Res.index, h]

theorem keyOk_npk {K : Keys} {idx : Nat} {c : Ctx} {r : Ref} {ks : KS} {es : KeyEvents Ev}
    (h : newPressedKey K idx c r = .ok (.resolved ks, es)) : KeyOk K r ks := by
  cases r with
  | automation i =>
    simp only [newPressedKey, Res.bind_eq_ok, Res.pure_eq, Res.ok.injEq, Prod.mk.injEq, PKR.resolved.injEq] at h
    obtain ⟨es, h1, rfl, _⟩ := h
    simp only [Automation.sysNewPressedKey, Res.bind_eq_ok] at h1
    obtain ⟨k, h1, _⟩ := h1
    exact ⟨i, rfl, index_lt h1⟩
  | callback i =>
    simp only [newPressedKey, Res.bind_eq_ok, Res.pure_eq, Res.ok.injEq, Prod.mk.injEq] at h
    obtain ⟨_, _, h, _⟩ := h
    simp at h
  | capsWord => simp [newPressedKey] at h
  | chorded r =>
    simp only [newPressedKey, Res.bind_eq_ok, Res.pure_eq, Res.ok.injEq, Prod.mk.injEq] at h
    obtain ⟨⟨p, es⟩, h1, h2, _⟩ := h
    cases p <;> simp at h2
  | consumer c =>
    simp only [newPressedKey, Res.ok.injEq, Prod.mk.injEq, PKR.resolved.injEq] at h
    rw [← h.1]; exact ⟨c, rfl⟩
  | custom c =>
    simp only [newPressedKey, Res.ok.injEq, Prod.mk.injEq, PKR.resolved.injEq] at h
    rw [← h.1]; exact ⟨c, rfl⟩
  | keyboard k =>
    simp only [newPressedKey, Res.ok.injEq, Prod.mk.injEq, PKR.resolved.injEq] at h
    rw [← h.1]; exact ⟨k, rfl⟩
  | layered r =>
    simp only [newPressedKey, Res.bind_eq_ok, Res.pure_eq, Res.ok.injEq, Prod.mk.injEq] at h
    obtain ⟨⟨p, es⟩, h1, h2, _⟩ := h
    cases r with
    | modifier i =>
      simp only [Layered.sysNewPressedKey, Res.bind_eq_ok, Res.pure_eq, Res.ok.injEq, Prod.mk.injEq] at h1
      obtain ⟨k, h1, rfl, _⟩ := h1
      simp only [PKR.resolved.injEq] at h2
      rw [← h2]; exact ⟨i, rfl, index_lt h1⟩
    | layered i =>
      simp only [Layered.sysNewPressedKey, Res.bind_eq_ok, Res.pure_eq, Res.ok.injEq, Prod.mk.injEq] at h1
      obtain ⟨k, h1, r, h3, rfl, _⟩ := h1
      simp at h2
  | mouse m =>
    simp only [newPressedKey, Res.ok.injEq, Prod.mk.injEq, PKR.resolved.injEq] at h
    rw [← h.1]; exact ⟨m, rfl⟩
  | sticky i =>
    simp only [newPressedKey, Res.bind_eq_ok, Res.pure_eq, Res.ok.injEq, Prod.mk.injEq, PKR.resolved.injEq] at h
    obtain ⟨b, h1, rfl, _⟩ := h
    simp only [Sticky.sysNewPressedKey, Res.bind_eq_ok] at h1
    obtain ⟨k, h1, _⟩ := h1
    exact ⟨i, rfl, index_lt h1⟩
  | tapDance i => simp [newPressedKey] at h
  | tapHold i =>
    simp only [newPressedKey, Res.bind_eq_ok, Res.pure_eq, Res.ok.injEq, Prod.mk.injEq] at h
    obtain ⟨⟨p, es⟩, h1, h2, _⟩ := h
    cases p <;> simp at h2

theorem keyOk_fromSys {K : Keys} {refs : List Ref} {S : Search} {idx : Nat} {r : Ref} {ks : KS}
    (h : FromSys (cfg K refs S) idx r ks) : KeyOk K r ks := by
  rcases h with rfl | ⟨c, es, h⟩
  · exact True.intro
  · exact keyOk_npk h

theorem keyOk_update {K : Keys} {ks ks' : KS} {r : Ref} {c : Ctx} {i : Nat} {ev : Event Ev} {es : KeyEvents Ev}
    (hk : KeyOk K r ks) (h : updateState K ks r c i ev = .ok (ks', es)) : KeyOk K r ks' := by
  cases ks with
  | noOp =>
    have : ks' = .noOp := by
      cases r <;> simp [updateState] at h <;> exact h.1.symm
    subst this; exact hk
  | automation =>
    obtain ⟨j, rfl, hj⟩ := hk
    simp only [updateState] at h
    split at h
    · simp only [Res.bind_eq_ok, Res.pure_eq, Res.ok.injEq, Prod.mk.injEq] at h
      obtain ⟨_, _, rfl, _⟩ := h
      exact ⟨j, rfl, hj⟩
    · simp only [Res.ok.injEq, Prod.mk.injEq] at h
      rw [← h.1]; exact ⟨j, rfl, hj⟩
  | consumer => obtain ⟨c, rfl⟩ := hk; simp only [updateState, Res.ok.injEq, Prod.mk.injEq] at h; rw [← h.1]; exact ⟨c, rfl⟩
  | custom => obtain ⟨c, rfl⟩ := hk; simp only [updateState, Res.ok.injEq, Prod.mk.injEq] at h; rw [← h.1]; exact ⟨c, rfl⟩
  | keyboard => obtain ⟨c, rfl⟩ := hk; simp only [updateState, Res.ok.injEq, Prod.mk.injEq] at h; rw [← h.1]; exact ⟨c, rfl⟩
  | mouse => obtain ⟨c, rfl⟩ := hk; simp only [updateState, Res.ok.injEq, Prod.mk.injEq] at h; rw [← h.1]; exact ⟨c, rfl⟩
  | layerModifier b =>
    obtain ⟨j, rfl, hj⟩ := hk
    simp only [updateState] at h
    split at h
    · simp only [Res.bind_eq_ok, Res.pure_eq, Res.ok.injEq, Prod.mk.injEq] at h
      obtain ⟨⟨_, _⟩, _, rfl, _⟩ := h
      exact ⟨j, rfl, hj⟩
    · simp only [Res.ok.injEq, Prod.mk.injEq] at h
      rw [← h.1]; exact ⟨j, rfl, hj⟩
  | sticky b =>
    obtain ⟨j, rfl, hj⟩ := hk
    simp only [updateState] at h
    split at h
    · simp only [Res.bind_eq_ok, Res.pure_eq, Res.ok.injEq, Prod.mk.injEq] at h
      obtain ⟨⟨_, _⟩, _, rfl, _⟩ := h
      exact ⟨j, rfl, hj⟩
    · simp only [Res.ok.injEq, Prod.mk.injEq] at h
      rw [← h.1]; exact ⟨j, rfl, hj⟩

/-- Every pressed key is well formed. -/
def KeysOk (K : Keys) (km : KM Ref Ev Ctx PKS KS) : Prop := ∀ i r ks, .key i r ks ∈ km.pressed → KeyOk K r ks

theorem KeysOk.new (K : Keys) (ctx : Ctx) : KeysOk K (KM.new ctx) := by simp [KeysOk, KM.new]

theorem keysOk_api (K : Keys) (refs : List Ref) (S : Search) : ApiInv (cfg K refs S) (KeysOk K) where
  micro := by
    intro a b h hq m
    cases m with
    | updKey ev pre i r ks post ks' es s hp hu hs =>
      intro i' r' ks1 hm
      simp only [List.mem_append, List.mem_cons, PressedInput.key.injEq] at hm
      rcases hm with hm | ⟨rfl, rfl, rfl⟩ | hm
      · exact h i' _ _ (by rw [hp]; simp [hm])
      · exact keyOk_update (c := a.ctx) (h i' _ _ (by rw [hp]; simp)) hu
      · exact h i' _ _ (by rw [hp]; simp [hm])
    | take ev s hd => intro i r ks hm; exact h i r ks (by simpa using hm)
    | resolve p ks km' hp hf he =>
      obtain ⟨_, _, rfl⟩ := resolveEnter_spec (hq.queued p hp) he
      intro i r ks' hm
      simp only [List.mem_append, List.mem_singleton, PressedInput.key.injEq] at hm
      rcases hm with hm | ⟨rfl, rfl, rfl⟩
      · exact h _ _ _ hm
      · exact keyOk_fromSys hf
    | pushKey idx r ks ps hp hq hn hf hc =>
      obtain ⟨_, rfl⟩ := pushCap_eq_ok.1 hc
      intro i r ks' hm
      simp only [List.mem_append, List.mem_singleton, PressedInput.key.injEq] at hm
      rcases hm with hm | ⟨rfl, rfl, rfl⟩
      · exact h _ _ _ hm
      · exact keyOk_fromSys hf
    | remKey idx hp hq => intro i r ks hm; exact h _ _ _ ((removeKey_sublist _ _).subset hm)
    | pushVirt ko ps hp hq hc =>
      obtain ⟨_, rfl⟩ := pushCap_eq_ok.1 hc
      intro i r ks' hm
      simp only [List.mem_append, List.mem_singleton, reduceCtorEq, or_false] at hm
      exact h _ _ _ hm
    | remVirt ko hp hq => intro i r ks hm; exact h _ _ _ ((removeVirt_sublist _ _).subset hm)
    | _ => exact h
  frame := fun _ h _ _ _ _ _ => h
  enq := fun _ h _ _ => h
  deq := fun _ h _ _ _ => h
  ctx := fun _ h _ _ => h
  tick := fun _ h _ _ _ => h
  init := by intro a _ i r ks hm; simp [KM.init] at hm

/-- No pressed key reacts to a virtual key event. -/
theorem keyOk_virtual {K : Keys} {ks : KS} {r : Ref} (h : KeyOk K r ks) (c : Ctx) (i : Nat) (ko : KeyOutput) :
    updateState K ks r c i (.input (.vpress ko)) = .ok (ks, []) ∧
    updateState K ks r c i (.input (.vrelease ko)) = .ok (ks, []) := by
  cases ks with
  | noOp => cases r <;> simp [updateState]
  | automation =>
    obtain ⟨j, rfl, hj⟩ := h
    simp [updateState, Event.tryInto, Automation.sysUpdateState, index_get hj, KeyEvents.mapEv]
  | consumer => obtain ⟨c, rfl⟩ := h; simp [updateState]
  | custom => obtain ⟨c, rfl⟩ := h; simp [updateState]
  | keyboard => obtain ⟨c, rfl⟩ := h; simp [updateState]
  | mouse => obtain ⟨c, rfl⟩ := h; simp [updateState]
  | layerModifier b =>
    obtain ⟨j, rfl, hj⟩ := h
    simp only [updateState, Event.tryInto, Layered.sysUpdateState, index_get hj, Res.ok_bind, Res.pure_eq]
    cases K.layerMods[j] <;> simp [Layered.handleKeyEvent, KeyEvents.mapEv]
  | sticky b =>
    obtain ⟨j, rfl, hj⟩ := h
    cases b <;> simp [updateState, Event.tryInto, Sticky.sysUpdateState, index_get hj, KeyEvents.mapEv, Sticky.updateState]

end Verif.Comp
