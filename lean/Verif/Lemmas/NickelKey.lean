import Verif.Lemmas.NickelLeaf

/-!
# What keys say, and how they are read
-/

namespace Verif.Nickel

open Codegen (JKey NKey Leaf toJsonAll toJsonLayers toJsonChords)

/-! ## One JSON module for a value -/

/-- The fields a JSON key may have. -/
def JMod.allowed : JMod → List String
  | .automation => ["automation_instructions"]
  | .callback => ["keymap_callback"]
  | .capsWord => []
  | .aux => ["passthrough"]
  | .chorded => ["chords", "passthrough"]
  | .consumer => ["consumer_code"]
  | .custom => ["custom"]
  | .keyboard => ["key_code", "modifiers"]
  | .mouse => ["mouse"]
  | .layered => ["base", "layered"]
  | .modifier => layerNames
  | .sticky => ["sticky_modifiers"]
  | .tapDance => ["definitions"]
  | .tapHold => ["tap", "hold"]

/-- Fields of which a JSON key has one. -/
def JMod.marks : JMod → List String
  | .chorded => ["chords"]
  | m => m.allowed

theorem mem_codegenModules (m : JMod) : m ∈ codegenModules := by cases m <;> simp [codegenModules]

theorem hasExact_shape {ns : List String} {f : String} {fs : Fields} (h : hasExact ns fs = true) (hf : f ∈ ns) :
    Only ns fs ∧ f ∈ names fs := by
  simp only [hasExact, Bool.and_eq_true, hasOnly_iff, hasAll, List.all_eq_true] at h
  exact ⟨h.2, by simpa using h.1 f hf⟩

theorem hasAny_shape {ns : List String} {fs : Fields} (h : (hasAnyOf ns fs && hasOnly ns fs) = true) :
    Only ns fs ∧ ∃ n ∈ names fs, n ∈ ns := by
  simp only [Bool.and_eq_true, hasOnly_iff, hasAnyOf, List.any_eq_true] at h
  exact ⟨h.2, by simpa using h.1⟩

theorem recordOf_eq {shape : Fields → Bool} {ps : List (String × (Val → Bool))} {v : Val} (h : recordOf shape ps v = true) :
    ∃ fs, v = .record fs ∧ shape fs = true ∧ fieldsOk ps fs = true := by
  cases v <;> simp only [recordOf, Bool.false_eq_true, Bool.and_eq_true] at h
  exact ⟨_, rfl, h⟩

theorem JMod.accepts_shape {key : Val → Bool} {m : JMod} {v : Val} (h : m.accepts key v = true) :
    (m = .capsWord ∧ v = .str "ToggleCapsWord") ∨ ∃ fs, v = .record fs ∧ Only m.allowed fs ∧ ∃ n ∈ names fs, n ∈ m.marks := by
  cases m <;> simp only [JMod.accepts] at h
  case capsWord =>
    left
    cases v <;> simp only [equalsString, Bool.false_eq_true, decide_eq_true_eq] at h
    exact ⟨rfl, by rw [h]⟩
  all_goals
    obtain ⟨fs, rfl, hs, _⟩ := recordOf_eq h
    refine .inr ⟨fs, rfl, ?_⟩
  case automation => exact ⟨(hasExact_shape hs (by simp : "automation_instructions" ∈ _)).1, "automation_instructions", (hasExact_shape hs (by simp)).2, by simp [marks, allowed]⟩
  case callback => exact ⟨(hasExact_shape hs (by simp : "keymap_callback" ∈ _)).1, "keymap_callback", (hasExact_shape hs (by simp)).2, by simp [marks, allowed]⟩
  case aux => exact ⟨(hasExact_shape hs (by simp : "passthrough" ∈ _)).1, "passthrough", (hasExact_shape hs (by simp)).2, by simp [marks, allowed]⟩
  case chorded => exact ⟨(hasExact_shape hs (by simp : "chords" ∈ _)).1, "chords", (hasExact_shape hs (by simp)).2, by simp [marks]⟩
  case consumer => exact ⟨(hasExact_shape hs (by simp : "consumer_code" ∈ _)).1, "consumer_code", (hasExact_shape hs (by simp)).2, by simp [marks, allowed]⟩
  case custom => exact ⟨(hasExact_shape hs (by simp : "custom" ∈ _)).1, "custom", (hasExact_shape hs (by simp)).2, by simp [marks, allowed]⟩
  case keyboard => exact hasAny_shape hs
  case mouse => exact ⟨(hasExact_shape hs (by simp : "mouse" ∈ _)).1, "mouse", (hasExact_shape hs (by simp)).2, by simp [marks, allowed]⟩
  case layered => exact ⟨(hasExact_shape hs (by simp : "base" ∈ _)).1, "base", (hasExact_shape hs (by simp)).2, by simp [marks, allowed]⟩
  case modifier => exact hasAny_shape hs
  case sticky => exact ⟨(hasExact_shape hs (by simp : "sticky_modifiers" ∈ _)).1, "sticky_modifiers", (hasExact_shape hs (by simp)).2, by simp [marks, allowed]⟩
  case tapDance => exact ⟨(hasExact_shape hs (by simp : "definitions" ∈ _)).1, "definitions", (hasExact_shape hs (by simp)).2, by simp [marks, allowed]⟩
  case tapHold => exact ⟨(hasExact_shape hs (by simp : "tap" ∈ _)).1, "tap", (hasExact_shape hs (by simp)).2, by simp [marks, allowed]⟩

theorem JMod.marks_disjoint : ∀ m ∈ codegenModules, ∀ m' ∈ codegenModules, (∃ n ∈ m.marks, n ∈ m'.allowed) → (∃ n ∈ m'.marks, n ∈ m.allowed) →
    m = m' := by decide

theorem JMod.accepts_unique {key key' : Val → Bool} {m m' : JMod} {v : Val} (h : m.accepts key v = true) (h' : m'.accepts key' v = true) : m = m' := by
  rcases JMod.accepts_shape h with ⟨rfl, rfl⟩ | ⟨fs, rfl, h1, n, hn, hm⟩ <;>
    rcases JMod.accepts_shape h' with ⟨rfl, h'⟩ | ⟨fs', h', h2, n', hn', hm'⟩
  · rfl
  · cases h'
  · cases h'
  · cases h'
    exact JMod.marks_disjoint m (mem_codegenModules m) m' (mem_codegenModules m') ⟨n, hm, h2 n hn⟩ ⟨n', hm', h1 n' hn'⟩

theorem filter_unique {α : Type} {p : α → Bool} {a : α} {l : List α} (hl : l.Nodup) (ha : a ∈ l) (hp : p a = true)
    (hu : ∀ b, p b = true → b = a) : l.filter p = [a] := by
  induction l with
  | nil => simp at ha
  | cons b l ih =>
    rw [List.nodup_cons] at hl
    rw [List.filter_cons]
    by_cases hb : p b = true
    · rw [if_pos hb, hu b hb]
      congr 1
      rw [List.filter_eq_nil_iff]
      intro c hc hpc
      have := hu c hpc
      rw [hu b hb] at hl
      exact hl.1 (this ▸ hc)
    · rw [if_neg hb]
      refine ih hl.2 ?_
      rcases List.mem_cons.1 ha with rfl | ha
      · exact absurd hp hb
      · exact ha

theorem accepting_eq {m : JMod} {v : Val} (h : m.accepts jsonValidator v = true) : accepting v = [m] :=
  filter_unique (by decide) (mem_codegenModules m) h fun _ h' => JMod.accepts_unique h' h

theorem read_of {m : JMod} {v : Val} (h : m.accepts jsonValidator v = true) : read v = m.read read v := by
  rw [read_eq, accepting_eq h]

theorem read_some {v : Val} {j : JKey} (h : read v = some j) : ∃ m : JMod, m.accepts jsonValidator v = true ∧ m.read read v = some j := by
  rw [read_eq] at h
  split at h
  · rename_i m hm
    have : m ∈ accepting v := by simp [hm]
    exact ⟨m, (List.mem_filter.1 this).2, h⟩
  · simp at h

/-- The module that reads a record with only one field. -/
theorem read_one {v x : Val} {f : String} {j : JKey} (ho : One f x v) (h : read v = some j) :
    ∃ m : JMod, f ∈ m.allowed ∧ m.accepts jsonValidator v = true ∧ m.read read v = some j := by
  obtain ⟨m, hm, hr⟩ := read_some h
  refine ⟨m, ?_, hm, hr⟩
  obtain ⟨fs, rfl, h1, h2⟩ := ho
  rcases JMod.accepts_shape hm with ⟨_, h⟩ | ⟨fs', h, h3, _⟩
  · cases h
  · cases h
    exact h3 f (get_isSome.2 ⟨_, h2⟩)

theorem read_two {v x y : Val} {f g : String} {j : JKey} (ho : Two f x g y v) (h : read v = some j) :
    ∃ m : JMod, f ∈ m.allowed ∧ g ∈ m.allowed ∧ m.accepts jsonValidator v = true ∧ m.read read v = some j := by
  obtain ⟨m, hm, hr⟩ := read_some h
  obtain ⟨fs, rfl, h1, h2, h2'⟩ := ho
  rcases JMod.accepts_shape hm with ⟨_, h⟩ | ⟨fs', h, h3, _⟩
  · cases h
  · cases h
    exact ⟨m, h3 f (get_isSome.2 ⟨_, h2⟩), h3 g (get_isSome.2 ⟨_, h2'⟩), hm, hr⟩

theorem recordExact_two {f g : String} {p q : Val → Bool} {x y v : Val} (h : Two f x g y v) (hx : p x = true) (hy : q y = true) :
    recordOf (hasExact [f, g]) [(f, p), (g, q)] v = true := by
  obtain ⟨fs, rfl, h1, h2, h3⟩ := h
  simp only [recordOf, Bool.and_eq_true, hasExact, hasOnly_iff, hasAll, List.all_cons, List.all_nil, and_true, fieldsOk_cons, fieldsOk_nil,
    h2, h3, Option.some.injEq, forall_eq', hx, hy]
  exact ⟨⟨by simpa using get_isSome.2 ⟨_, h2⟩, by simpa using get_isSome.2 ⟨_, h3⟩⟩, h1⟩

theorem Two.record {f g : String} {x y : Val} (h : f ≠ g) : Two f x g y (.record [(f, x), (g, y)]) :=
  ⟨_, rfl, by simp [Only, names], by simp [get_cons], by simp [get_cons, h]⟩

theorem Two.swap {f g : String} {x y v : Val} (h : Two f x g y v) : Two g y f x v := by
  obtain ⟨fs, rfl, h1, h2, h3⟩ := h
  exact ⟨fs, rfl, fun n hn => by have := h1 n hn; simp only [List.mem_cons, List.not_mem_nil, or_false] at this ⊢; exact this.symm, h3, h2⟩

/-! ## The module of a source key -/

/-- The place of a module in the list. -/
def Mod.rank : Mod → Nat
  | .automation => 0 | .callback => 1 | .capsWord => 2 | .chorded => 3 | .chordedAux => 4 | .consumer => 5 | .custom => 6
  | .keyboard => 7 | .layerModifier => 8 | .layered => 9 | .mouse => 10 | .sticky => 11 | .tapDance => 12 | .tapHold => 13

/-- Modules which allow other fields. -/
def Mod.isOpen : Mod → Bool
  | .layered => true
  | .tapDance => true
  | .tapHold => true
  | _ => false

/-- The fields of a key. -/
def Mod.names : Mod → List String
  | .automation => ["automation_instructions"]
  | .callback => ["keymap_callback"]
  | .capsWord => []
  | .chorded => ["chords", "passthrough"]
  | .chordedAux => ["passthrough"]
  | .consumer => ["consumer_code"]
  | .custom => ["custom"]
  | .keyboard => ["key_code", "modifiers"]
  | .layerModifier => ["layer_modifier"]
  | .layered => ["layered"]
  | .mouse => ["mouse"]
  | .sticky => ["sticky_modifiers"]
  | .tapDance => ["tap_dances"]
  | .tapHold => ["hold"]

theorem moduleFor_of {m : Mod} {v : Val} (hm : m.accepts keyValidator v = true)
    (h : ∀ m' : Mod, m'.accepts keyValidator v = true → m.rank ≤ m'.rank) : moduleFor v = some m := by
  have hmem : m ∈ keyModules := by cases m <;> simp [keyModules]
  cases hf : moduleFor v with
  | none =>
    rw [moduleFor, List.find?_eq_none] at hf
    exact absurd hm (hf m hmem)
  | some m' =>
    rw [moduleFor, List.find?_eq_some_iff_append] at hf
    obtain ⟨hp, as, bs, he, has⟩ := hf
    have hpw : keyModules.Pairwise (fun a b => a.rank < b.rank) := by decide
    rw [he, List.mem_append, List.mem_cons] at hmem
    rcases hmem with hmem | rfl | hmem
    · have := has m hmem
      rw [hm] at this
      simp at this
    · rfl
    · rw [he, List.pairwise_append, List.pairwise_cons] at hpw
      have h1 := hpw.2.1.1 m hmem
      have h2 := h m' hp
      omega

theorem moduleFor_accepts {m : Mod} {v : Val} (h : moduleFor v = some m) : m.accepts keyValidator v = true := by
  have := List.find?_some h
  exact this

theorem moduleFor_first {m m' : Mod} {v : Val} (h : moduleFor v = some m) (h' : m'.accepts keyValidator v = true) : m.rank ≤ m'.rank := by
  rw [moduleFor, List.find?_eq_some_iff_append] at h
  obtain ⟨hp, as, bs, he, has⟩ := h
  have hmem : m' ∈ keyModules := by cases m' <;> simp [keyModules]
  have hpw : keyModules.Pairwise (fun a b => a.rank < b.rank) := by decide
  rw [he, List.mem_append, List.mem_cons] at hmem
  rcases hmem with hmem | rfl | hmem
  · have := has m' hmem
    rw [h'] at this
    simp at this
  · omega
  · rw [he, List.pairwise_append, List.pairwise_cons] at hpw
    have := hpw.2.1.1 m' hmem
    omega

theorem Mod.accepts_record {key : Val → Bool} {m : Mod} {fs : Fields} (h : m.accepts key (.record fs) = true) :
    (m.isOpen = true ∧ ∀ n ∈ m.names, n ∈ Nickel.names fs) ∨ (m.isOpen = false ∧ Only m.names fs) := by
  have hp : ∀ f x, pat f (.record fs) = some x → Only [f] fs := by
    intro f x hx
    obtain ⟨fs', he, h1, _⟩ := pat_iff.1 hx
    cases he
    exact h1
  have hr : ∀ f x, patRest f (.record fs) = some x → f ∈ Nickel.names fs := by
    intro f x hx
    obtain ⟨fs', he, h1, _⟩ := patRest_eq (w := x.1) (x := x.2) hx
    cases he
    exact get_isSome.2 ⟨_, h1⟩
  cases m <;> simp only [Mod.accepts, equalsString, Bool.false_eq_true, recordOf, Bool.and_eq_true, hasOnly_iff] at h <;>
    simp only [isOpen, Mod.names, true_and, Bool.false_eq_true, Bool.true_eq_false, false_and, or_false, false_or, List.mem_singleton, forall_eq]
  case automation => exact h.1
  case callback =>
    split at h
    · exact hp _ _ ‹_›
    · simp at h
  case chorded =>
    split at h
    · rename_i cs p hp
      obtain ⟨fs', he, h1, _⟩ := pat₂_iff.1 hp
      cases he
      exact h1
    · simp at h
  case chordedAux =>
    split at h
    · exact hp _ _ ‹_›
    · simp at h
  case consumer => exact (hasExact_shape h.1 (by simp : "consumer_code" ∈ _)).1
  case custom =>
    split at h
    · exact hp _ _ ‹_›
    · simp at h
  case keyboard => exact h.1.2
  case layerModifier =>
    split at h
    · exact hp _ _ ‹_›
    · simp at h
  case layered =>
    split at h
    · exact hr _ _ ‹_›
    · simp at h
  case mouse => exact (hasExact_shape h.1 (by simp : "mouse" ∈ _)).1
  case sticky => exact (hasExact_shape h.1 (by simp : "sticky_modifiers" ∈ _)).1
  case tapDance =>
    split at h
    · exact hr _ _ ‹_›
    · simp at h
  case tapHold =>
    split at h
    · exact hr _ _ ‹_›
    · simp at h

theorem moduleFor_one {m : Mod} {v x : Val} {f : String} (ho : One f x v) (hm : m.accepts keyValidator v = true)
    (hr : ∀ m' : Mod, f ∈ m'.names → m.rank ≤ m'.rank) : moduleFor v = some m := by
  obtain ⟨fs, rfl, h1, h2⟩ := ho
  refine moduleFor_of hm fun m' hm' => ?_
  have hf := get_isSome.2 ⟨_, h2⟩
  rcases Mod.accepts_record hm' with ⟨h3, h4⟩ | ⟨h3, h4⟩
  · apply hr
    cases m' <;> simp only [Mod.isOpen, Bool.false_eq_true] at h3 <;> simp only [Mod.names, List.mem_singleton, forall_eq] at h4 ⊢ <;>
      · have := h1 _ h4
        simp only [List.mem_singleton] at this
        exact this.symm
  · exact hr m' (h4 f hf)

theorem moduleFor_keyboard {v : Val} {fs : Fields} (hv : v = .record fs) (ho : Only ["key_code", "modifiers"] fs)
    (hm : Mod.keyboard.accepts keyValidator v = true) : moduleFor v = some .keyboard := by
  subst hv
  refine moduleFor_of hm fun m' hm' => ?_
  have hne : ∃ n ∈ Nickel.names fs, n ∈ ["key_code", "modifiers"] := by
    simp only [Mod.accepts, recordOf, Bool.and_eq_true, hasAnyOf, List.any_eq_true] at hm
    simpa using hm.1.1
  obtain ⟨n, hn, hn'⟩ := hne
  rcases Mod.accepts_record hm' with ⟨h3, h4⟩ | ⟨h3, h4⟩
  · cases m' <;> simp only [Mod.isOpen, Bool.false_eq_true] at h3 <;> simp only [Mod.names, List.mem_singleton, forall_eq] at h4 ⊢ <;>
      · have := ho _ h4
        simp at this
  · have := h4 n hn
    simp only [List.mem_cons, List.not_mem_nil, or_false] at hn'
    rcases hn' with rfl | rfl <;> cases m' <;> simp [Mod.names] at this <;> simp [Mod.rank]

/-- The kind of a key. -/
def kind : NKey → Mod
  | .leaf (.automation _) => .automation
  | .leaf (.compiled _) => .automation
  | .leaf (.callback _) => .callback
  | .leaf .capsWord => .capsWord
  | .leaf (.consumer _) => .consumer
  | .leaf (.custom _) => .custom
  | .leaf (.keyCode _) => .keyboard
  | .leaf (.modifiers _) => .keyboard
  | .leaf (.keyCodeModifiers _ _) => .keyboard
  | .leaf (.layerModifier _) => .layerModifier
  | .leaf (.mouse _) => .mouse
  | .leaf (.sticky _) => .sticky
  | .hold _ _ => .tapHold
  | .dances _ _ => .tapDance
  | .layered _ _ => .layered
  | .chorded _ _ => .chorded
  | .aux _ => .chordedAux

theorem recordOnly_one {p : Val → Bool} {f : String} {x v : Val} (h : One f x v) (hp : p x = true) :
    recordOf (hasOnly [f]) [(f, p)] v = true := by
  obtain ⟨fs, rfl, h1, h2⟩ := h
  simp only [recordOf, Bool.and_eq_true, hasOnly_iff, fieldsOk_cons, fieldsOk_nil, and_true, h2, Option.some.injEq, forall_eq', hp]
  exact h1

theorem leaf_module {l : Leaf} {v : Val} (h : LeafSaid true l v) : moduleFor v = some (kind (.leaf l)) := by
  cases h with
  | automation hm h =>
    exact moduleFor_one h (recordOnly_one h hm.ok) (by intro m'; cases m' <;> simp [Mod.rank, kind])
  | compiled hm h =>
    exact moduleFor_one h (recordOnly_one h hm.ok) (by intro m'; cases m' <;> simp [Mod.rank, kind])
  | callback hc h =>
    exact moduleFor_one h (by simp [kind, Mod.accepts, pat_iff.2 h, hc.ok]) (by intro m'; cases m' <;> simp [Mod.rank, kind, Mod.names])
  | capsWord => decide
  | consumer h =>
    exact moduleFor_one h (recordExact_one h (by simp [isNumber_ofByte])) (by intro m'; cases m' <;> simp [Mod.rank, kind, Mod.names])
  | custom h =>
    exact moduleFor_one h (by simp [kind, Mod.accepts, pat_iff.2 h, isNumber_ofByte]) (by intro m'; cases m' <;> simp [Mod.rank, kind, Mod.names])
  | keyCode h =>
    obtain ⟨fs, rfl, h1, h2⟩ := h
    refine moduleFor_keyboard rfl (fun n hn => by have := h1 n hn; simp_all) ?_
    simp only [Mod.accepts, recordOf, Bool.and_eq_true, hasOnly_iff, fieldsOk_cons, fieldsOk_nil, and_true, h2, Option.some.injEq, forall_eq',
      isNumber_ofByte, hasAnyOf_of h2 (List.mem_cons_self), true_and]
    exact ⟨fun n hn => by have := h1 n hn; simp_all, by simp [h1.get_none (f := "modifiers")]⟩
  | modifiers hm h =>
    obtain ⟨fs, rfl, h1, h2⟩ := h
    refine moduleFor_keyboard rfl (fun n hn => by have := h1 n hn; simp_all) ?_
    simp only [Mod.accepts, recordOf, Bool.and_eq_true, hasOnly_iff, fieldsOk_cons, fieldsOk_nil, and_true, h2, Option.some.injEq, forall_eq',
      hm.ok, hasAnyOf_of h2 (List.mem_cons_of_mem _ List.mem_cons_self), true_and]
    exact ⟨fun n hn => by have := h1 n hn; simp_all, by simp [h1.get_none (f := "key_code")]⟩
  | keyCodeModifiers hm h =>
    obtain ⟨fs, rfl, h1, h2, h3⟩ := h
    refine moduleFor_keyboard rfl h1 ?_
    simp only [Mod.accepts, recordOf, Bool.and_eq_true, hasOnly_iff, fieldsOk_cons, fieldsOk_nil, and_true, h2, h3, Option.some.injEq, forall_eq',
      hm.ok, hasAnyOf_of h2 (List.mem_cons_self), true_and, isNumber_ofByte]
    exact h1
  | layerModifier hm h =>
    exact moduleFor_one h (by simp [kind, Mod.accepts, pat_iff.2 h, hm.ok]) (by intro m'; cases m' <;> simp [Mod.rank, kind, Mod.names])
  | mouse hm h =>
    exact moduleFor_one h (recordExact_one h (by simp [hm.json])) (by intro m'; cases m' <;> simp [Mod.rank, kind, Mod.names])
  | sticky hm h =>
    exact moduleFor_one h (recordExact_one h (by simp [hm.ok])) (by intro m'; cases m' <;> simp [Mod.rank, kind, Mod.names])

theorem moduleFor_valid {m : Mod} {v : Val} (h : moduleFor v = some m) : keyValidator v = true := by
  rw [← moduleFor_isSome, h]; rfl

theorem open_rank {m : Mod} {fs : Fields} {key : Val → Bool} (h : m.accepts key (.record fs) = true) {n : String} (hn : n ∈ names fs)
    (hno : ∀ m : Mod, m.isOpen = false → n ∉ m.names) : m.isOpen = true := by
  rcases Mod.accepts_record h with ⟨h1, _⟩ | ⟨h1, h2⟩
  · exact h1
  · exact absurd (h2 n hn) (hno m h1)

theorem not_open {m : Mod} {fs : Fields} {key : Val → Bool} (h : m.accepts key (.record fs) = true) :
    (m = .layered → "layered" ∈ names fs) ∧ (m = .tapDance → "tap_dances" ∈ names fs) ∧ (m = .tapHold → "hold" ∈ names fs) := by
  refine ⟨?_, ?_, ?_⟩ <;> rintro rfl <;> rcases Mod.accepts_record h with ⟨_, h⟩ | ⟨h, _⟩
  · exact h _ (by simp [Mod.names])
  · simp [Mod.isOpen] at h
  · exact h _ (by simp [Mod.names])
  · simp [Mod.isOpen] at h
  · exact h _ (by simp [Mod.names])
  · simp [Mod.isOpen] at h

theorem both_eq (a b : Bool) : both a b = a := by cases a <;> cases b <;> rfl

mutual

theorem says_module : ∀ (k : NKey) (v : Val), k.Says true v → moduleFor v = some (kind k)
  | .leaf l, v, h => leaf_module (by simpa [NKey.Says] using h)
  | .hold t hk, v, h => by
    simp only [NKey.Says] at h
    obtain ⟨fs, w, rfl, h1, h2, h3, _, h4⟩ := h
    have hv := moduleFor_valid (says_module hk w h4)
    refine moduleFor_of (by simp [kind, Mod.accepts, patRest, h3, hv, both_eq]) fun m hm => ?_
    have ho := open_rank hm (get_isSome.2 ⟨_, h3⟩) (by intro m; cases m <;> simp [Mod.isOpen, Mod.names])
    have hn := not_open hm
    cases m <;> simp [Mod.isOpen] at ho <;> simp [Mod.rank, kind]
    · exact get_eq_none.1 h1 (hn.1 rfl)
    · exact get_eq_none.1 h2 (hn.2.1 rfl)
  | .dances t ds, v, h => by
    simp only [NKey.Says] at h
    obtain ⟨fs, vs, rfl, h1, h2, _, h3⟩ := h
    have hv := says_modules ds vs h3
    refine moduleFor_of (by simp only [kind, Mod.accepts, patRest, h2, Option.map_some, hv, both]; cases keyValidator _ <;> rfl) fun m hm => ?_
    have ho := open_rank hm (get_isSome.2 ⟨_, h2⟩) (by intro m; cases m <;> simp [Mod.isOpen, Mod.names])
    have hn := not_open hm
    cases m <;> simp [Mod.isOpen] at ho <;> simp [Mod.rank, kind]
    exact get_eq_none.1 h1 (hn.1 rfl)
  | .layered b ls, v, h => by
    simp only [NKey.Says] at h
    obtain ⟨fs, vs, rfl, h1, _, h3⟩ := h
    have hv := says_layers ls vs h3
    refine moduleFor_of (by simp only [kind, Mod.accepts, patRest, h1, Option.map_some, hv, both]; cases keyValidator _ <;> rfl) fun m hm => ?_
    have ho := open_rank hm (get_isSome.2 ⟨_, h1⟩) (by intro m; cases m <;> simp [Mod.isOpen, Mod.names])
    cases m <;> simp [Mod.isOpen] at ho <;> simp [Mod.rank, kind]
  | .chorded cs p, v, h => by
    simp only [NKey.Says] at h
    obtain ⟨vs, w, h1, h2, _⟩ := h
    have hv := says_chords cs vs h2
    refine moduleFor_of (by simp only [kind, Mod.accepts, pat₂_iff.2 h1, hv, both]; cases keyValidator _ <;> rfl) fun m hm => ?_
    obtain ⟨fs, rfl, g1, g2, g3⟩ := h1
    rcases Mod.accepts_record hm with ⟨h3, h4⟩ | ⟨h3, h4⟩
    · cases m <;> simp [Mod.isOpen] at h3 <;> simp [Mod.rank, kind]
    · have := h4 _ (get_isSome.2 ⟨_, g2⟩)
      cases m <;> simp [Mod.names] at this <;> simp [Mod.rank, kind]
  | .aux p, v, h => by
    simp only [NKey.Says] at h
    obtain ⟨w, h1, h2⟩ := h
    have hv := moduleFor_valid (says_module p w h2)
    refine moduleFor_of (by simp only [kind, Mod.accepts, pat_iff.2 h1, hv]) fun m hm => ?_
    have hc : m ≠ .chorded := by
      rintro rfl
      simp [Mod.accepts, h1.pat₂] at hm
    obtain ⟨fs, rfl, g1, g2⟩ := h1
    rcases Mod.accepts_record hm with ⟨h3, h4⟩ | ⟨h3, h4⟩
    · cases m <;> simp [Mod.isOpen] at h3 <;> simp [Mod.rank, kind]
    · have := h4 _ (get_isSome.2 ⟨_, g2⟩)
      cases m <;> simp [Mod.names] at this hc <;> simp [Mod.rank, kind]

theorem says_modules : ∀ (ks : List NKey) (vs : List Val), AllSay true ks vs → arrayOf keyValidator (.arr vs) = true
  | [], vs, h => by
    simp only [AllSay] at h
    subst h
    rfl
  | k :: ks, vs, h => by
    simp only [AllSay] at h
    obtain ⟨v, rest, rfl, h1, h2⟩ := h
    have a := moduleFor_valid (says_module k v h1)
    have b := says_modules ks rest h2
    simp only [arrayOf] at b ⊢
    simp [a, b]

theorem says_layers : ∀ (ks : List (Option NKey)) (vs : List Val), LayersSay true ks vs → arrayOf (anyOf [isNull, keyValidator]) (.arr vs) = true
  | [], vs, h => by
    simp only [LayersSay] at h
    subst h
    rfl
  | none :: ks, vs, h => by
    simp only [LayersSay] at h
    obtain ⟨rest, rfl, h2⟩ := h
    have b := says_layers ks rest h2
    simp only [arrayOf] at b ⊢
    simp [b, anyOf, isNull]
  | some k :: ks, vs, h => by
    simp only [LayersSay] at h
    obtain ⟨v, rest, rfl, h1, h2⟩ := h
    have a := moduleFor_valid (says_module k v h1)
    have b := says_layers ks rest h2
    simp only [arrayOf] at b ⊢
    simp only [List.all_cons, b, anyOf, List.any_cons, a, Bool.true_or, Bool.or_true, Bool.and_self]

theorem says_chords : ∀ (ks : List (Nat × NKey)) (vs : List Val), ChordsSay true ks vs → arrayOf (tupleOf [isNumber, keyValidator]) (.arr vs) = true
  | [], vs, h => by
    simp only [ChordsSay] at h
    subst h
    rfl
  | (i, k) :: ks, vs, h => by
    simp only [ChordsSay] at h
    obtain ⟨v, rest, rfl, h1, h2⟩ := h
    have a := moduleFor_valid (says_module k v h1)
    have b := says_chords ks rest h2
    simp only [arrayOf] at b ⊢
    simp [b, tupleOf, tupleElements, a, isNumber]

end

end Verif.Nickel
