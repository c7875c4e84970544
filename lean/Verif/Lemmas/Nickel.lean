import Verif.Spec.Nickel

/-!
# Lemmas about values, patterns and the recursions of the compiler
-/

namespace Verif.Nickel

open Codegen (JKey)

theorem Val.size_pos (v : Val) : 0 < v.size := by
  cases v <;> simp [Val.size] <;> omega

theorem size_mem {v : Val} {vs : List Val} (h : v ∈ vs) : v.size ≤ sizes vs := by
  induction vs with
  | nil => simp at h
  | cons w vs ih =>
    simp only [sizes]
    rcases List.mem_cons.1 h with rfl | h
    · omega
    · have := ih h; omega

theorem size_field {x : String × Val} {fs : Fields} (h : x ∈ fs) : x.2.size < fieldSizes fs := by
  induction fs with
  | nil => simp at h
  | cons w vs ih =>
    obtain ⟨n, w⟩ := w
    simp only [fieldSizes]
    rcases List.mem_cons.1 h with rfl | h
    · simp only; omega
    · have := ih h; omega

theorem get_mem {f : String} {fs : Fields} {v : Val} (h : get f fs = some v) : (f, v) ∈ fs := by
  unfold get at h
  obtain ⟨x, hx, rfl⟩ := Option.map_eq_some_iff.1 h
  have h1 := List.find?_some hx
  have h2 := List.mem_of_find?_eq_some hx
  simp only [decide_eq_true_eq] at h1
  subst h1
  exact h2

theorem get_cons (f : String) (x : String × Val) (fs : Fields) : get f (x :: fs) = if x.1 = f then some x.2 else get f fs := by
  unfold get
  rw [List.find?_cons]
  by_cases h : x.1 = f <;> simp [h]

@[simp] theorem get_nil (f : String) : get f [] = none := rfl

theorem get_eq_none {f : String} {fs : Fields} : get f fs = none ↔ f ∉ names fs := by
  induction fs with
  | nil => simp [names]
  | cons x fs ih =>
    rw [get_cons]
    by_cases h : x.1 = f
    · simp [h, names]
    · simp only [if_neg h, ih, names, List.map_cons, List.mem_cons, not_or]
      exact ⟨fun h' => ⟨fun e => h e.symm, h'⟩, fun h' => h'.2⟩

theorem get_isSome {f : String} {fs : Fields} : f ∈ names fs ↔ ∃ v, get f fs = some v := by
  cases h : get f fs with
  | none => simp [get_eq_none.1 h]
  | some v =>
    simp only [Option.some.injEq, exists_eq', iff_true]
    exact List.mem_map.2 ⟨_, get_mem h, rfl⟩

theorem get_without {f g : String} {fs : Fields} (h : f ≠ g) : get f (without g fs) = get f fs := by
  induction fs with
  | nil => rfl
  | cons x fs ih =>
    unfold without at ih ⊢
    rw [List.filter_cons]
    by_cases hx : x.1 = g
    · have : x.1 ≠ f := fun e => h (e.symm.trans hx)
      simp only [hx, ne_eq, not_true_eq_false, decide_false, Bool.false_eq_true, if_false, ih, get_cons]
      rw [if_neg (fun e => h e.symm)]
    · simp only [hx, ne_eq, not_false_eq_true, decide_true, if_true, get_cons, ih]

theorem get_without_self (f : String) (fs : Fields) : get f (without f fs) = none := by
  rw [get_eq_none]
  simp [names, without]

theorem without_sizes (f : String) (fs : Fields) : fieldSizes (without f fs) ≤ fieldSizes fs := by
  induction fs with
  | nil => simp [without]
  | cons x fs ih =>
    obtain ⟨n, v⟩ := x
    unfold without at ih ⊢
    rw [List.filter_cons]
    split
    · simp only [fieldSizes]; omega
    · simp only [fieldSizes]; omega

theorem without_lt {f : String} {fs : Fields} {v : Val} (h : get f fs = some v) : fieldSizes (without f fs) < fieldSizes fs := by
  induction fs with
  | nil => simp at h
  | cons x fs ih =>
    obtain ⟨n, w⟩ := x
    rw [get_cons] at h
    by_cases hn : n = f
    · have := without_sizes f fs
      simp only [without, List.filter_cons, hn, ne_eq, not_true_eq_false, decide_false, Bool.false_eq_true, if_false, fieldSizes] at this ⊢
      omega
    · simp only [if_neg hn] at h
      have := ih h
      simp only [without, List.filter_cons, hn, ne_eq, not_false_eq_true, decide_true, if_true, fieldSizes] at this ⊢
      omega

theorem pat_eq {f : String} {v w : Val} (h : pat f v = some w) : ∃ fs, v = .record fs ∧ (∀ n ∈ names fs, n = f) ∧ get f fs = some w := by
  cases v <;> simp only [pat, reduceCtorEq] at h
  split at h
  · rename_i fs hf
    exact ⟨fs, rfl, by simpa using hf, h⟩
  · simp at h

theorem pat_size {f : String} {v w : Val} (h : pat f v = some w) : w.size < v.size := by
  obtain ⟨fs, rfl, _, h⟩ := pat_eq h
  have := size_field (get_mem h)
  simp only [Val.size] at this ⊢
  omega

theorem pat₂_eq {f g : String} {v w x : Val} (h : pat₂ f g v = some (w, x)) :
    ∃ fs, v = .record fs ∧ (∀ n ∈ names fs, n = f ∨ n = g) ∧ get f fs = some w ∧ get g fs = some x := by
  cases v <;> simp only [pat₂, reduceCtorEq] at h
  split at h
  · rename_i fs hf
    split at h
    · rename_i a b ha hb
      simp only [Option.some.injEq, Prod.mk.injEq] at h
      exact ⟨fs, rfl, by simpa using hf, by rw [ha, h.1], by rw [hb, h.2]⟩
    · simp at h
  · simp at h

theorem pat₂_size {f g : String} {v w x : Val} (h : pat₂ f g v = some (w, x)) : w.size < v.size ∧ x.size < v.size := by
  obtain ⟨fs, rfl, _, h, h'⟩ := pat₂_eq h
  have h1 := size_field (get_mem h)
  have h2 := size_field (get_mem h')
  simp only [Val.size] at h1 h2 ⊢
  omega

theorem patRest_eq {f : String} {v w x : Val} (h : patRest f v = some (w, x)) :
    ∃ fs, v = .record fs ∧ get f fs = some w ∧ x = .record (without f fs) := by
  cases v <;> simp only [patRest, reduceCtorEq] at h
  rename_i fs
  obtain ⟨a, ha, hb⟩ := Option.map_eq_some_iff.1 h
  simp only [Prod.mk.injEq] at hb
  exact ⟨fs, rfl, by rw [ha, hb.1], hb.2.symm⟩

theorem patRest_size {f : String} {v w x : Val} (h : patRest f v = some (w, x)) : w.size < v.size ∧ x.size < v.size := by
  obtain ⟨fs, rfl, hg, rfl⟩ := patRest_eq h
  have h1 := size_field (get_mem hg)
  have h2 := without_lt hg
  simp only [Val.size] at h1 ⊢
  omega

/-! ## The depth of the recursions -/

/-- Two functions agree on the values inside of `v`. -/
def Below {β : Type} (v : Val) (p q : Val → β) : Prop := ∀ w : Val, w.size < v.size → p w = q w

theorem Below.mono {β : Type} {v w : Val} {p q : Val → β} (h : Below v p q) (hw : w.size ≤ v.size) : Below w p q :=
  fun x hx => h x (by omega)

theorem arrayOf_congr {p q : Val → Bool} {v : Val} (h : Below v p q) : arrayOf p v = arrayOf q v := by
  cases v <;> try rfl
  rename_i vs
  simp only [arrayOf]
  have h' : ∀ w ∈ vs, p w = q w := fun w hw => h w (by have := size_mem hw; simp only [Val.size]; omega)
  clear h
  induction vs with
  | nil => rfl
  | cons x vs ih =>
    simp only [List.all_cons]
    rw [h' x (by simp), ih (fun w hw => h' w (by simp [hw]))]

theorem tupleOf_congr {p q : Val → Bool} {v : Val} (h : Below v p q) : tupleOf [isNumber, p] v = tupleOf [isNumber, q] v := by
  cases v <;> try rfl
  rename_i vs
  match vs with
  | [] => rfl
  | [_] => rfl
  | [a, b] =>
    simp only [tupleOf, tupleElements]
    rw [h b (by have := size_mem (v := b) (vs := [a, b]) (by simp); simp only [Val.size]; omega)]
  | a :: b :: c :: vs => simp [tupleOf, tupleElements]

theorem tuples_congr {p q : Val → Bool} {v : Val} (h : Below v p q) :
    arrayOf (tupleOf [isNumber, p]) v = arrayOf (tupleOf [isNumber, q]) v :=
  arrayOf_congr fun w hw => tupleOf_congr (h.mono (by omega))

theorem nullables_congr {p q : Val → Bool} {v : Val} (h : Below v p q) :
    arrayOf (anyOf [isNull, p]) v = arrayOf (anyOf [isNull, q]) v :=
  arrayOf_congr fun w hw => by simp [anyOf, h w hw]

theorem Mod.accepts_congr {p q : Val → Bool} {v : Val} (h : Below v p q) (m : Mod) : m.accepts p v = m.accepts q v := by
  cases m <;> simp only [Mod.accepts]
  · cases hp : pat₂ "chords" "passthrough" v with
    | none => rfl
    | some x =>
      obtain ⟨cs, x⟩ := x
      obtain ⟨h1, h2⟩ := pat₂_size hp
      simp only [tuples_congr (h.mono (by omega : cs.size ≤ v.size)), h x h2]
  · cases hp : pat "passthrough" v with
    | none => rfl
    | some x => simp only [h x (pat_size hp)]
  · cases hp : patRest "layered" v with
    | none => rfl
    | some x =>
      obtain ⟨cs, x⟩ := x
      obtain ⟨h1, h2⟩ := patRest_size hp
      simp only [nullables_congr (h.mono (by omega : cs.size ≤ v.size)), h x h2]
  · cases hp : patRest "tap_dances" v with
    | none => rfl
    | some x =>
      obtain ⟨cs, x⟩ := x
      obtain ⟨h1, h2⟩ := patRest_size hp
      simp only [arrayOf_congr (h.mono (by omega : cs.size ≤ v.size)), h x h2]
  · cases hp : patRest "hold" v with
    | none => rfl
    | some x =>
      obtain ⟨cs, x⟩ := x
      obtain ⟨h1, h2⟩ := patRest_size hp
      simp only [h cs h1, h x h2]

theorem keyValidatorTo_eq (n : Nat) : ∀ v : Val, v.size ≤ n → ∀ m, v.size ≤ m → keyValidatorTo n v = keyValidatorTo m v := by
  induction n with
  | zero => intro v hv; have := v.size_pos; omega
  | succ n ih =>
    intro v hv m hm
    cases m with
    | zero => have := v.size_pos; omega
    | succ m =>
      simp only [keyValidatorTo]
      congr 1
      funext x
      exact x.accepts_congr fun w hw => ih w (by omega) m (by omega)

theorem keyValidator_eq (v : Val) : keyValidator v = keyModules.any fun m => m.accepts keyValidator v := by
  have hp := v.size_pos
  unfold keyValidator
  rw [keyValidatorTo_eq v.size v (by omega) (v.size - 1 + 1) (by omega)]
  simp only [keyValidatorTo]
  congr 1
  funext x
  exact x.accepts_congr fun w hw => keyValidatorTo_eq _ w (by omega) _ (by omega)

theorem moduleFor_isSome (v : Val) : (moduleFor v).isSome = keyValidator v := by
  rw [keyValidator_eq, moduleFor, List.isSome_find?]

theorem mapAll_congr {β : Type} {f g : Val → Option β} {vs : List Val} (h : ∀ w ∈ vs, f w = g w) : mapAll f vs = mapAll g vs := by
  induction vs with
  | nil => rfl
  | cons x vs ih =>
    simp only [mapAll]
    rw [h x (by simp), ih (fun w hw => h w (by simp [hw]))]

theorem mapArray_congr {f g : Val → Option Val} {v : Val} (h : Below v f g) : mapArray f v = mapArray g v := by
  cases v <;> try rfl
  rename_i vs
  simp only [mapArray]
  rw [mapAll_congr fun w hw => h w (by have := size_mem hw; simp only [Val.size]; omega)]

theorem elements_congr {β : Type} {f g : Val → Option β} {v : Val} (h : Below v f g) : elements f v = elements g v := by
  cases v <;> try rfl
  rename_i vs
  simp only [elements]
  rw [mapAll_congr fun w hw => h w (by have := size_mem hw; simp only [Val.size]; omega)]

theorem inPair_congr {f g : Val → Option Val} {v : Val} (h : Below v f g) : inPair f v = inPair g v := by
  cases v <;> try rfl
  rename_i vs
  match vs with
  | [] => rfl
  | [_] => rfl
  | [a, b] =>
    simp only [inPair]
    rw [h b (by have := size_mem (v := b) (vs := [a, b]) (by simp); simp only [Val.size]; omega)]
  | a :: b :: c :: vs => simp [inPair]

theorem numbered_congr {f g : Val → Option JKey} {v : Val} (h : Below v f g) : numbered f v = numbered g v := by
  cases v <;> try rfl
  rename_i vs
  match vs with
  | [] => rfl
  | [_] => rfl
  | [a, b] =>
    simp only [numbered]
    rw [h b (by have := size_mem (v := b) (vs := [a, b]) (by simp); simp only [Val.size]; omega)]
  | a :: b :: c :: vs => simp [numbered]

theorem Mod.value_congr {f g : Val → Option Val} {v : Val} (h : Below v f g) (m : Mod) : m.value f v = m.value g v := by
  cases m <;> simp only [Mod.value]
  · cases hp : pat₂ "chords" "passthrough" v with
    | none => rfl
    | some x =>
      obtain ⟨cs, x⟩ := x
      obtain ⟨h1, h2⟩ := pat₂_size hp
      have := mapArray_congr (v := cs) fun w hw => inPair_congr (f := f) (g := g) (v := w) (h.mono (by omega))
      simp only [Option.bind_eq_bind, Option.bind_some, this, h x h2]
  · cases hp : pat "passthrough" v with
    | none => rfl
    | some x => simp only [Option.bind_eq_bind, Option.bind_some, h x (pat_size hp)]
  · cases hp : patRest "layered" v with
    | none => rfl
    | some x =>
      obtain ⟨cs, x⟩ := x
      obtain ⟨h1, h2⟩ := patRest_size hp
      have := mapArray_congr (f := orNull f) (g := orNull g) (v := cs) fun w hw => by
        have := h w (by omega)
        cases w <;> simp only [orNull, this]
      simp only [Option.bind_eq_bind, Option.bind_some, this, h x h2]
  · cases hp : patRest "tap_dances" v with
    | none => rfl
    | some x =>
      obtain ⟨cs, x⟩ := x
      obtain ⟨h1, h2⟩ := patRest_size hp
      simp only [Option.bind_eq_bind, Option.bind_some, h x h2]
      cases cs <;> try rfl
      rename_i vs
      simp only
      rw [mapAll_congr (f := f) (g := g) fun w hw => h w (by have := size_mem hw; simp only [Val.size] at h1; omega)]
  · cases hp : patRest "hold" v with
    | none => rfl
    | some x =>
      obtain ⟨cs, x⟩ := x
      obtain ⟨h1, h2⟩ := patRest_size hp
      simp only [Option.bind_eq_bind, Option.bind_some, h cs h1, h x h2]

theorem toJsonTo_eq (n : Nat) : ∀ v : Val, v.size ≤ n → ∀ m, v.size ≤ m → toJsonTo n v = toJsonTo m v := by
  induction n with
  | zero => intro v hv; have := v.size_pos; omega
  | succ n ih =>
    intro v hv m hm
    cases m with
    | zero => have := v.size_pos; omega
    | succ m =>
      simp only [toJsonTo]
      congr 1
      funext x
      exact x.value_congr fun w hw => ih w (by omega) m (by omega)

theorem toJson_eq (v : Val) : toJson v = (moduleFor v).bind fun m => m.value toJson v := by
  have hp := v.size_pos
  unfold toJson
  rw [toJsonTo_eq v.size v (by omega) (v.size - 1 + 1) (by omega)]
  simp only [toJsonTo]
  congr 1
  funext x
  exact x.value_congr fun w hw => toJsonTo_eq _ w (by omega) _ (by omega)

theorem fieldsOk_congr {ps qs : List (String × (Val → Bool))} {fs : Fields} (h : ps.map (·.1) = qs.map (·.1))
    (hv : ∀ p q, (p, q) ∈ ps.zip qs → ∀ w, get p.1 fs = some w → p.2 w = q.2 w) : fieldsOk ps fs = fieldsOk qs fs := by
  unfold fieldsOk
  induction ps generalizing qs with
  | nil =>
    cases qs with
    | nil => rfl
    | cons q qs => simp at h
  | cons p ps ih =>
    cases qs with
    | nil => simp at h
    | cons q qs =>
      simp only [List.map_cons, List.cons.injEq] at h
      simp only [List.all_cons]
      rw [ih h.2 (fun p q hpq => hv p q (by simp [hpq]))]
      congr 1
      have := hv p q (by simp)
      rw [← h.1]
      cases hg : get p.1 fs with
      | none => rfl
      | some w => exact this w hg

theorem JMod.accepts_congr {p q : Val → Bool} {v : Val} (h : Below v p q) (m : JMod) : m.accepts p v = m.accepts q v := by
  cases v with
  | record fs =>
    have hf : ∀ f w, get f fs = some w → w.size < (Val.record fs).size := fun f w hw => by
      have := size_field (get_mem hw)
      simp only [Val.size] at this ⊢; omega
    cases m <;> simp only [JMod.accepts, recordOf] <;> (try rfl) <;> congr 1 <;> refine fieldsOk_congr (by rfl) ?_ <;> intro a b hab w hw <;>
      simp only [List.zip_cons_cons, List.zip_nil_left, List.mem_cons, List.not_mem_nil, or_false, Prod.mk.injEq] at hab
    · obtain ⟨rfl, rfl⟩ := hab
      exact h w (hf _ _ hw)
    · rcases hab with ⟨rfl, rfl⟩ | ⟨rfl, rfl⟩
      · exact tuples_congr (h.mono (by have := hf _ _ hw; omega))
      · exact h w (hf _ _ hw)
    · rcases hab with ⟨rfl, rfl⟩ | ⟨rfl, rfl⟩
      · exact h w (hf _ _ hw)
      · exact nullables_congr (h.mono (by have := hf _ _ hw; omega))
    · obtain ⟨rfl, rfl⟩ := hab
      exact arrayOf_congr (h.mono (by have := hf _ _ hw; omega))
    · rcases hab with ⟨rfl, rfl⟩ | ⟨rfl, rfl⟩
      · exact h w (hf _ _ hw)
      · exact h w (hf _ _ hw)
  | _ => cases m <;> rfl

theorem jsonValidatorTo_eq (n : Nat) : ∀ v : Val, v.size ≤ n → ∀ m, v.size ≤ m → jsonValidatorTo n v = jsonValidatorTo m v := by
  induction n with
  | zero => intro v hv; have := v.size_pos; omega
  | succ n ih =>
    intro v hv m hm
    cases m with
    | zero => have := v.size_pos; omega
    | succ m =>
      simp only [jsonValidatorTo]
      congr 1
      funext x
      exact x.accepts_congr fun w hw => ih w (by omega) m (by omega)

theorem jsonValidator_eq (v : Val) : jsonValidator v = codegenModules.any fun m => m.accepts jsonValidator v := by
  have hp := v.size_pos
  unfold jsonValidator
  rw [jsonValidatorTo_eq v.size v (by omega) (v.size - 1 + 1) (by omega)]
  simp only [jsonValidatorTo]
  congr 1
  funext x
  exact x.accepts_congr fun w hw => jsonValidatorTo_eq _ w (by omega) _ (by omega)

theorem JMod.read_congr {f g : Val → Option JKey} {v : Val} (h : Below v f g) (m : JMod) : m.read f v = m.read g v := by
  cases m <;> simp only [JMod.read]
  · cases hp : pat "passthrough" v with
    | none => rfl
    | some x => simp only [Option.bind_eq_bind, Option.bind_some, h x (pat_size hp)]
  · cases hp : pat₂ "chords" "passthrough" v with
    | none => rfl
    | some x =>
      obtain ⟨cs, x⟩ := x
      obtain ⟨h1, h2⟩ := pat₂_size hp
      have := elements_congr (v := cs) fun w hw => numbered_congr (f := f) (g := g) (v := w) (h.mono (by omega))
      simp only [Option.bind_eq_bind, Option.bind_some, this, h x h2]
  · cases hp : pat₂ "base" "layered" v with
    | none => rfl
    | some x =>
      obtain ⟨cs, x⟩ := x
      obtain ⟨h1, h2⟩ := pat₂_size hp
      have := elements_congr (f := optional f) (g := optional g) (v := x) fun w hw => by
        have := h w (by omega)
        cases w <;> simp only [optional, this]
      simp only [Option.bind_eq_bind, Option.bind_some, this, h cs h1]
  · cases hp : pat "definitions" v with
    | none => rfl
    | some x =>
      have := elements_congr (v := x) (h.mono (by have := pat_size hp; omega) : Below x f g)
      simp only [Option.bind_eq_bind, Option.bind_some, this]
  · cases hp : pat₂ "hold" "tap" v with
    | none => rfl
    | some x =>
      obtain ⟨cs, x⟩ := x
      obtain ⟨h1, h2⟩ := pat₂_size hp
      simp only [Option.bind_eq_bind, Option.bind_some, h cs h1, h x h2]

theorem readTo_eq (n : Nat) : ∀ v : Val, v.size ≤ n → ∀ m, v.size ≤ m → readTo n v = readTo m v := by
  induction n with
  | zero => intro v hv; have := v.size_pos; omega
  | succ n ih =>
    intro v hv m hm
    cases m with
    | zero => have := v.size_pos; omega
    | succ m =>
      simp only [readTo]
      split
      · rename_i x _
        exact x.read_congr fun w hw => ih w (by omega) m (by omega)
      · rfl

/-- The modules that accept a JSON value. -/
def accepting (v : Val) : List JMod := codegenModules.filter fun m => m.accepts jsonValidator v

theorem read_eq (v : Val) : read v = match accepting v with
    | [m] => m.read read v
    | _ => none := by
  have hp := v.size_pos
  unfold read
  rw [readTo_eq v.size v (by omega) (v.size - 1 + 1) (by omega)]
  simp only [readTo]
  change (match accepting v with
    | [m] => m.read (readTo (v.size - 1)) v
    | _ => none) = _
  generalize accepting v = ms
  match ms with
  | [] => rfl
  | [x] => exact x.read_congr fun w hw => readTo_eq _ w (by omega) _ (by omega)
  | _ :: _ :: _ => rfl

theorem read_valid {v : Val} {j : JKey} (h : read v = some j) : jsonValidator v = true := by
  rw [read_eq] at h
  split at h
  · rename_i m hm
    rw [jsonValidator_eq, List.any_eq_true]
    have : m ∈ accepting v := by simp [hm]
    obtain ⟨h1, h2⟩ := List.mem_filter.1 this
    exact ⟨m, h1, h2⟩
  · simp at h

end Verif.Nickel
