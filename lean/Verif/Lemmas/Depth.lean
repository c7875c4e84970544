import Verif.Lemmas.Steps

/-!
# The recursion limit does not change results

The functions of the model take a limit on the depth of recursion, and give `fuel` when it is too small. A larger limit
never changes any other result.
-/

namespace Verif

/-- `x` is cut off, or is the same as `y`. -/
def Below {α : Type} (x y : Res α) : Prop := x = .fuel ∨ x = y

namespace Below
variable {α β : Type}

theorem refl (x : Res α) : Below x x := .inr rfl
theorem fuel (x : Res α) : Below .fuel x := .inl rfl

theorem bind {x y : Res α} {f g : α → Res β} (h : Below x y) (hf : ∀ a, Below (f a) (g a)) :
    Below (x >>= f) (y >>= g) := by
  rcases h with rfl | rfl
  · exact .inl rfl
  · cases x with
    | ok a => exact hf a
    | panic p => exact .inr rfl
    | fuel => exact .inr rfl

theorem map {x y : Res α} {f : α → β} (h : Below x y) : Below (f <$> x) (f <$> y) := by
  rcases h with rfl | rfl
  · exact .inl rfl
  · exact .inr rfl

theorem ok {x y : Res α} {a : α} (h : Below x y) (hx : x = .ok a) : y = .ok a := by
  rcases h with rfl | rfl
  · simp at hx
  · exact hx

end Below

variable {R Ev Ctx PKS KS : Type} {C : Cfg R Ev Ctx PKS KS} {he he' : Handler R Ev Ctx PKS KS}

/-- The one handler is cut off where the other is not, and otherwise they are the same. -/
def HBelow (he he' : Handler R Ev Ctx PKS KS) : Prop := ∀ km ev, Below (he km ev) (he' km ev)

theorem drain_below (h : HBelow he he') {n n' : Nat} (hn : n ≤ n') (km : KM R Ev Ctx PKS KS) :
    Below (drain he n km) (drain he' n' km) := by
  induction n generalizing n' km with
  | zero => exact .fuel _
  | succ n ih =>
    obtain ⟨n', rfl⟩ : ∃ k, n' = k + 1 := ⟨n' - 1, by omega⟩
    simp only [drain]
    split
    · exact .refl _
    · exact .bind (h _ _) (fun _ => ih (by omega) _)

theorem resolve_below (h : HBelow he he') {n n' : Nat} (hn : n ≤ n') (km : KM R Ev Ctx PKS KS) (p : Pending R Ev PKS) (ks : KS) :
    Below (resolve C he n km p ks) (resolve C he' n' km p ks) := by
  unfold resolve
  refine .bind (.refl _) (fun _ => .bind (drain_below h hn _) (fun _ => .bind (.refl _) (fun o => ?_)))
  cases o
  · exact .refl _
  · exact h _ _

theorem pendLoop_below (h : HBelow he he') {n n' m m' : Nat} (hn : n ≤ n') (hm : m ≤ m') (km : KM R Ev Ctx PKS KS)
    (p : Pending R Ev PKS) (k : NPK R) : Below (pendLoop C he n m km p k) (pendLoop C he' n' m' km p k) := by
  induction m generalizing m' km p k with
  | zero => exact .fuel _
  | succ m ih =>
    obtain ⟨m', rfl⟩ : ∃ k, m' = k + 1 := ⟨m' - 1, by omega⟩
    cases k with
    | noOp => exact resolve_below h hn _ _ _
    | key r =>
      refine .bind (.refl _) (fun x => .bind (.refl _) (fun s => ?_))
      obtain ⟨pkr, es⟩ := x
      cases pkr with
      | resolved ks => exact resolve_below h hn _ _ _
      | pending pks => exact .refl _
      | newPressedKey k =>
        cases k with
        | noOp => exact resolve_below h hn _ _ _
        | key r' => exact ih (by omega) _ _ _

theorem updatePending_below (h : HBelow he he') {n n' : Nat} (hn : n ≤ n') (km : KM R Ev Ctx PKS KS) (ev : Event Ev) :
    Below (updatePending C he n km ev) (updatePending C he' n' km ev) := by
  unfold updatePending
  split
  · exact .refl _
  · refine .bind (.refl _) (fun x => .bind (.refl _) (fun s => ?_))
    obtain ⟨pks, npk, es⟩ := x
    cases npk
    · exact .refl _
    · exact pendLoop_below h hn hn _ _ _

theorem pressLoop_below (h : HBelow he he') (idx : Nat) {m m' : Nat} (hm : m ≤ m') (km : KM R Ev Ctx PKS KS) (r : R) :
    Below (pressLoop C he idx m km r) (pressLoop C he' idx m' km r) := by
  induction m generalizing m' km r with
  | zero => exact .fuel _
  | succ m ih =>
    obtain ⟨m', rfl⟩ : ∃ k, m' = k + 1 := ⟨m' - 1, by omega⟩
    simp only [pressLoop]
    refine .bind (.refl _) (fun x => .bind (.refl _) (fun s => ?_))
    obtain ⟨pkr, es⟩ := x
    cases pkr with
    | resolved ks =>
      refine .bind (.refl _) (fun _ => .bind (.refl _) (fun o => ?_))
      cases o
      · exact .refl _
      · exact h _ _
    | pending pks => exact .refl _
    | newPressedKey k =>
      cases k with
      | noOp => exact .refl _
      | key r' => exact ih (by omega) _ _

theorem processInput_below (h : HBelow he he') {n n' : Nat} (hn : n ≤ n') (km : KM R Ev Ctx PKS KS) (ie : InputEvent) :
    Below (processInput C he n km ie) (processInput C he' n' km ie) := by
  have h2 : Below (processDirect C he n km ie) (processDirect C he' n' km ie) := by
    unfold processDirect
    refine .bind (.refl _) (fun km1 => ?_)
    cases ie with
    | press idx =>
      simp only
      split
      · exact .refl _
      · exact .bind (.refl _) (fun _ => pressLoop_below h _ hn _ _)
    | release idx => exact .refl _
    | vpress ko => exact .refl _
    | vrelease ko => exact .refl _
  unfold processInput
  simp only
  split
  · exact .bind (.refl _) (fun _ => .bind (updatePending_below h hn _ _) (fun _ => drain_below h hn _))
  · exact .bind h2 (fun _ => drain_below h hn _)

theorem handleBody_below (h : HBelow he he') {n n' : Nat} (hn : n ≤ n') : HBelow (handleBody C he n) (handleBody C he' n') := by
  intro km ev
  refine .bind (updatePending_below h hn _ _) (fun _ => .bind (.refl _) (fun _ => ?_))
  cases ev with
  | input ie => exact processInput_below h hn _ _
  | key i e => exact .refl _
  | keymap e => exact .refl _

theorem handleEvent_below {n n' : Nat} (hn : n ≤ n') : HBelow (handleEvent C n) (handleEvent C n') := by
  induction n generalizing n' with
  | zero => exact fun _ _ => .fuel _
  | succ n ih =>
    obtain ⟨n', rfl⟩ : ∃ k, n' = k + 1 := ⟨n' - 1, by omega⟩
    exact handleBody_below (ih (by omega)) (by omega)

section Calls
variable {n n' : Nat} (hn : n ≤ n')
include hn

theorem handleInput_below (km : KM R Ev Ctx PKS KS) (ev : InputEvent) :
    Below (handleInput C n km ev) (handleInput C n' km ev) := by
  simp only [handleInput]
  split
  · exact .refl _
  · split
    · split
      · exact .refl _
      · exact .bind (processInput_below (handleEvent_below hn) hn _ _) (fun _ => .refl _)
    · exact .refl _

theorem tick_below (km : KM R Ev Ctx PKS KS) : Below (tick C n km) (tick C n' km) := by
  simp only [tick]
  refine .bind ?_ (fun _ => .bind (.refl _) (fun _ => .bind (drain_below (handleEvent_below hn) hn _) (fun _ => .refl _)))
  simp only [tickInput]
  split
  · split
    · exact .bind (processInput_below (handleEvent_below hn) hn _ _) (fun _ => .refl _)
    · exact .refl _
  · exact .refl _

theorem ticks_below (k : Nat) (km : KM R Ev Ctx PKS KS) : Below (ticks C n k km) (ticks C n' k km) := by
  induction k generalizing km with
  | zero => exact .refl _
  | succ k ih => exact .bind (tick_below hn _) (fun _ => ih _)

theorem tickBy_below (km : KM R Ev Ctx PKS KS) (d : Nat) : Below (tickBy C n km d) (tickBy C n' km d) := by
  unfold tickBy
  split
  · exact tick_below hn _
  · split
    · exact .refl _
    · exact ticks_below hn _ _

theorem step_below (km : KM R Ev Ctx PKS KS) (op : Op) : Below (step C n km op) (step C n' km op) := by
  cases op with
  | input ev => exact handleInput_below hn _ _
  | tick => exact tick_below hn _
  | report => exact .refl _
  | init => exact .refl _
  | setCallback c f => exact .refl _
  | setMsPerTick ms => exact .refl _
  | inputAfter d ev =>
    exact .map (.bind (tickBy_below hn _ _) (fun _ => .bind (handleInput_below hn _ _) (fun _ => .refl _)))
  | tickToNext =>
    refine .map (.bind (.refl _) (fun o => ?_))
    cases o
    · exact .refl _
    · exact .bind (tickBy_below hn _ _) (fun _ => .refl _)

theorem run_below (km : KM R Ev Ctx PKS KS) (ops : List Op) : Below (run C n km ops) (run C n' km ops) := by
  induction ops generalizing km with
  | nil => exact .refl _
  | cons op ops ih => exact .bind (step_below hn _ _) (fun _ => ih _)

end Calls

end Verif
