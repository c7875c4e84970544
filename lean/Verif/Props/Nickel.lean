import Verif.Lemmas.NickelSrc
import Verif.Props.Codegen

/-!
# Keymap files: records of fields

C75: what a keymap file says, C76: keymap.json between the two stages of the compiler, C77: the contract of keys.
-/

namespace Verif.Nickel

open Codegen (NKey Leaf Src SrcChord JKey ModRec)

/-! ## C75: a keymap file compiles as the keymap it says -/

/-- C75. A value says at most one key: whatever the order of the fields, with or without fields in the lists of macros that do
not belong there. -/
theorem C75_one_meaning {t t' : Bool} {k k' : NKey} {v : Val} (h : k.Says t v) (h' : k'.Says t' v) : k = k' := Says.unique h h'

/-- C75. A keymap file compiles exactly as the keymap it says; if that one does not compile, neither does the file. -/
theorem C75_compiles {r : Raw} {s : Src} (h : r.Says true s) (hl : ∀ l ∈ s.layers, ∀ k : NKey, some k ∈ l → k.Written)
    (hc : ∀ c ∈ s.chords, c.key.Written) : compile r = Codegen.compile s := compile_eq h ⟨hl, hc⟩

/-- C75. A file which compiles says a keymap, and it is compiled as the one it says. Missing, because it is false
(`C75_typo_refuted`): that it says the keymap tidily, with `r.Says true s`. -/
theorem C75_nothing_else_partial {r : Raw} {c : Codegen.Compiled} (h : compile r = some c) :
    (∃ s, r.Says false s) ∧ ∀ t s, r.Says t s → Codegen.compile s = some c :=
  ⟨compile_said h, fun _ _ hs => compile_back hs h⟩

/-- C75. So the compiled keymap means at every position what the file says there (C58). -/
theorem C75_positions {r : Raw} {c : Codegen.Compiled} (h : compile r = some c) {t : Bool} {s : Src} (hs : r.Says t s) :
    c.refs.length = r.count ∧ ∀ i ref, c.refs[i]? = some ref → Codegen.Position c.keys c.config.automation.instructions s i ref := by
  have hc := compile_back hs h
  obtain ⟨⟨base, hb, hlen⟩, hp⟩ := Codegen.C58_faithful hc
  refine ⟨?_, hp⟩
  have := hs.layers
  cases hs0 : s.layers with
  | nil => rw [hs0] at hb; simp at hb
  | cons b bs =>
    rw [hs0] at hb this
    simp only [List.getElem?_cons_zero, Option.some.injEq] at hb
    subst hb
    cases hr : r.layers with
    | nil => rw [hr] at this; simp at this
    | cons v vs =>
      rw [hr] at this
      simp only [List.map_cons, List.cons.injEq] at this
      rw [hlen, this.1]
      simp [Raw.count, hr]

/-- `{ hold = { key_code = 4 }, automation_instructions = { on_press = [ { Tap = … } ], on_relase = [ { Tap = … } ] } }`. -/
def misspelt : Val :=
  .record [("hold", .record [("key_code", .num 4)]),
    ("automation_instructions", .record [
      ("on_press", .arr [.record [("Tap", .record [("key_code", .record [("Keyboard", .num 5)])])]]),
      ("on_relase", .arr [.record [("Tap", .record [("key_code", .record [("Keyboard", .num 6)])])]])])]

/-- The same without the list with the misspelt name. -/
def shortened : Val :=
  .record [("hold", .record [("key_code", .num 4)]),
    ("automation_instructions", .record [
      ("on_press", .arr [.record [("Tap", .record [("key_code", .record [("Keyboard", .num 5)])])]])])]

/-- C75. A list of instructions with a misspelt name in a tap-hold key passes the contract, and the file compiles as if the
list were not there; no key is written like this. On its own the macro is rejected. -/
theorem C75_typo_refuted :
    (compile { layers := [[misspelt]] }).isSome ∧
    (∀ s, ¬ (Raw.Says true { layers := [[misspelt]] } s)) ∧
    (compile { layers := [[misspelt]] }).map (fun c => (c.refs, c.config.automation.instructions)) =
      (compile { layers := [[shortened]] }).map (fun c => (c.refs, c.config.automation.instructions)) ∧
    (∀ fs, misspelt = .record fs → compile { layers := [[.record (without "hold" fs)]] } = none) := by
  refine ⟨by decide +kernel, fun s hs => ?_, by decide +kernel, fun fs hfs => ?_⟩
  · obtain ⟨bs, us, _, e2, e3, _⟩ := hs.parts (vbs := [misspelt]) (upper := []) rfl
    cases bs with
    | nil => simp at e2
    | cons k ks =>
      have hc : Cell true k misspelt := e3 0 _ _ rfl rfl
      cases k with
      | none => cases hc
      | some k =>
        have hk : k.Says true misspelt := hc
        obtain ⟨t, h, rfl⟩ := get_hold_some (fs := _) (x := .record [("key_code", .num 4)]) hk (by decide +kernel) (by decide +kernel) (by simp [get_cons])
        simp only [NKey.Says] at hk
        obtain ⟨fs, w, he, _, _, _, ht, _⟩ := hk
        have := moduleFor_valid (says_module _ _ ht)
        simp only [misspelt, Val.record.injEq] at he
        subst he
        revert this
        decide +kernel
  · simp only [misspelt, Val.record.injEq] at hfs
    subst hfs
    have : (compile { layers := [[.record (without "hold" [("hold", .record [("key_code", .num 4)]),
    ("automation_instructions", .record [
      ("on_press", .arr [.record [("Tap", .record [("key_code", .record [("Keyboard", .num 5)])])]]),
      ("on_relase", .arr [.record [("Tap", .record [("key_code", .record [("Keyboard", .num 6)])])]])])])]] }).isNone := by decide +kernel
    exact Option.isNone_iff_eq_none.1 this

/-! ## C76: keymap.json -/

/-- C76. No value is taken for a key of two kinds by the second stage. -/
theorem C76_one_kind {key key' : Val → Bool} {v : Val} {m m' : JMod} (h : m.accepts key v = true) (h' : m'.accepts key' v = true) : m = m' :=
  JMod.accepts_unique h h'

/-- C76. What the second stage reads from what the first stage wrote for a value is what the value says, and it reads nothing
from what was written for any other value. -/
theorem C76_read_back {v : Val} {j : JKey} : (toJson v).bind read = some j ↔ ∃ k : NKey, k.Says true v ∧ k.toJson = some j := read_iff

/-- C76. What is read has passed the validator of the second stage. -/
theorem C76_valid {w : Val} {j : JKey} (h : read w = some j) : jsonValidator w = true := read_valid h

/-- C76. The numbering of the macros keeps what a value says: the result says the key with its macros numbered, and the list of
instructions has grown by those of the macros. -/
theorem C76_numbered {k : NKey} {v : Val} (h : k.Says true v) (hw : k.Written) {acc : List Automation.Instruction} {accV : List Val}
    (ha : InstructionsSaid acc accV) :
    ∃ m accV' v', moduleFor v = some m ∧ m.accum accV v = some (accV', v') ∧ (Codegen.mapAccum acc k).2.Says true v' ∧
      InstructionsSaid (Codegen.mapAccum acc k).1 accV' := by
  obtain ⟨accV', v', h1, h2, h3⟩ := accum_says h (fresh₁_of_written hw) ha
  exact ⟨_, accV', v', says_module _ _ h, h1, h2, h3⟩

/-! ## C77: the contract of keys -/

/-- C77. Every key is accepted by the contract, and so is `null`. -/
theorem C77_accepts {k : Option NKey} {v : Val} (h : Cell true k v) : nullableKey v = true := by
  have := h.checked
  unfold checked at this
  split at this
  · assumption
  · cases this

theorem column_checked {idx : Nat} : ∀ {r : List (List Val)} {vs : List Val}, column idx r = some vs → ∀ row ∈ r, ∀ v, row[idx]? = some v → nullableKey v = true
  | [], vs, h, row, hr => by cases hr
  | vs :: r, ws, h, row, hr => by
    simp only [column, Option.bind_eq_bind, Option.bind_eq_some_iff, Option.pure_def, Option.some.injEq] at h
    obtain ⟨v, hv, v', hv', ws', hws, rfl⟩ := h
    intro x hx
    rcases List.mem_cons.1 hr with rfl | hr
    · rw [hv] at hx; cases hx
      unfold checked at hv'
      split at hv'
      · assumption
      · cases hv'
    · exact column_checked hws row hr x hx

theorem stackedFrom_checked {r : List (List Val)} : ∀ {vbs vs : List Val} {idx : Nat}, stackedFrom r idx vbs = some vs →
    (∀ v ∈ vbs, nullableKey v = true) ∧ ∀ j < vbs.length, ∀ row ∈ r, ∀ x, row[idx + j]? = some x → nullableKey x = true
  | [], vs, idx, h => by simp
  | vb :: vbs, vs, idx, h => by
    simp only [stackedFrom, stacked, Option.bind_eq_bind, Option.bind_eq_some_iff, Option.pure_def, Option.some.injEq] at h
    obtain ⟨v, ⟨ls, h1, b, hb, _⟩, vs', h2, rfl⟩ := h
    have hvb : nullableKey vb = true := by
      unfold checked at hb
      split at hb
      · assumption
      · cases hb
    obtain ⟨b1, b2⟩ := stackedFrom_checked h2
    refine ⟨by simpa using ⟨hvb, b1⟩, fun j hj row hrow x hx => ?_⟩
    cases j with
    | zero => exact column_checked h1 row hrow x (by simpa using hx)
    | succ j => exact b2 j (by simpa using hj) row hrow x (by rwa [← Nat.add_assoc, Nat.add_right_comm] at hx)

/-- C77. A file with a value at one of its positions, in any layer, which the contract does not accept, does not compile. -/
theorem C77_enforced {r : Raw} {l i : Nat} {vs : List Val} {v : Val} (hl : r.layers[l]? = some vs) (hv : vs[i]? = some v) (hi : i < r.count)
    (h : nullableKey v = false) : compile r = none := by
  cases hc : compile r with
  | none => rfl
  | some c =>
    exfalso
    obtain ⟨vbs, upper, vs0, _, _, _, _, _, hr, h0, _⟩ := compile_steps hc
    obtain ⟨a, b⟩ := stackedFrom_checked h0
    rw [hr] at hl
    have hok : nullableKey v = true := by
      cases l with
      | zero =>
        simp only [List.getElem?_cons_zero, Option.some.injEq] at hl
        subst hl
        exact a v (List.mem_of_getElem? hv)
      | succ l =>
        simp only [Raw.count, hr, List.getElem?_cons_zero, Option.map_some, Option.getD_some] at hi
        exact b i hi vs (List.mem_of_getElem? (by simpa using hl)) v (by simpa using hv)
    rw [h] at hok
    cases hok

/-- C77. Of the callbacks which are a command for the Bluetooth radio as text, the contract accepts the five commands there are: a file with another does not
compile. -/
theorem C77_bluetooth (s : String) : nullableKey (.record [("keymap_callback", .record [("Bluetooth", .str s)])]) = true ↔
    s = "Clear" ∨ s = "ClearAll" ∨ s = "Disconnect" ∨ s = "Next" ∨ s = "Previous" := by
  have h : ∀ n, keyValidatorTo (n + 1) (.record [("keymap_callback", .record [("Bluetooth", .str s)])]) = bluetoothNames.contains s := by
    intro n
    simp [keyValidatorTo, keyModules, Mod.accepts, pat, pat₂, patRest, recordOf, hasOnly, hasExact, hasAnyOf, equalsString, callbackKey, names, get]
  have hn : ∃ n, (Val.record [("keymap_callback", .record [("Bluetooth", .str s)])]).size = n + 1 := ⟨_, by simp only [Val.size]; rfl⟩
  obtain ⟨n, hn⟩ := hn
  simp [nullableKey, anyOf, keyValidator, hn, h, isNull, bluetoothNames]

/-- C77. The contract accepts values which are not keys: a tap-hold key with a field that belongs to no key, and the
record without any fields. -/
theorem C77_not_a_key_refuted :
    let v := Val.record [("hold", .record [("key_code", .num 4)]), ("nonsense", .num 1)]
    (nullableKey v = true ∧ ∀ t (k : NKey), ¬ k.Says t v) ∧
    (nullableKey (.record []) = true ∧ ∀ t (k : NKey), ¬ k.Says t (.record [])) := by
  refine ⟨⟨by decide +kernel, fun t k hk => ?_⟩, by decide +kernel, fun t k hk => ?_⟩
  · obtain ⟨b, h, rfl⟩ := get_hold_some (x := .record [("key_code", .num 4)]) hk (by decide +kernel) (by decide +kernel) (by simp [get_cons])
    simp only [NKey.Says] at hk
    obtain ⟨fs, w, he, _, _, _, ht, _⟩ := hk
    simp only [Val.record.injEq] at he
    subst he
    have key : ∀ {f : String} {x : Val}, One f x (.record [("nonsense", .num 1)]) → f = "nonsense" := by
      rintro f x ⟨_, he, ho, _⟩
      cases he
      have := ho "nonsense" (by simp [names])
      exact (List.mem_singleton.1 this).symm
    have hw : without "hold" [("hold", Val.record [("key_code", .num 4)]), ("nonsense", .num 1)] = [("nonsense", .num 1)] := by simp [without]
    rw [hw] at ht
    cases b with
    | leaf l =>
      simp only [NKey.Says] at ht
      cases ht with
      | keyCodeModifiers _ h =>
        obtain ⟨_, he, _, hg, _⟩ := h
        cases he
        simp [get_cons] at hg
      | automation _ h => exact absurd (key h) (by simp)
      | compiled _ h => exact absurd (key h) (by simp)
      | callback _ h => exact absurd (key h) (by simp)
      | consumer h => exact absurd (key h) (by simp)
      | custom h => exact absurd (key h) (by simp)
      | keyCode h => exact absurd (key h) (by simp)
      | modifiers _ h => exact absurd (key h) (by simp)
      | layerModifier _ h => exact absurd (key h) (by simp)
      | mouse _ h => exact absurd (key h) (by simp)
      | sticky _ h => exact absurd (key h) (by simp)
    | hold _ _ =>
      simp only [NKey.Says] at ht
      obtain ⟨_, _, he, _, _, hg, _⟩ := ht
      cases he
      simp [get_cons] at hg
    | dances _ _ =>
      simp only [NKey.Says] at ht
      obtain ⟨_, _, he, _, hg, _⟩ := ht
      cases he
      simp [get_cons] at hg
    | layered _ _ =>
      simp only [NKey.Says] at ht
      obtain ⟨_, _, he, hg, _⟩ := ht
      cases he
      simp [get_cons] at hg
    | chorded _ _ =>
      simp only [NKey.Says] at ht
      obtain ⟨_, _, ⟨_, he, _, hg, _⟩, _⟩ := ht
      cases he
      simp [get_cons] at hg
    | aux _ =>
      simp only [NKey.Says] at ht
      obtain ⟨_, h, _⟩ := ht
      exact absurd (key h) (by simp)
  · have key : ∀ {f : String} {x : Val}, ¬ One f x (.record []) := by
      rintro f x ⟨_, he, _, hg⟩
      cases he
      cases hg
    cases k with
    | leaf l =>
      simp only [NKey.Says] at hk
      cases hk with
      | keyCodeModifiers _ h =>
        obtain ⟨_, he, _, hg, _⟩ := h
        cases he
        cases hg
      | automation _ h => exact key h
      | compiled _ h => exact key h
      | callback _ h => exact key h
      | consumer h => exact key h
      | custom h => exact key h
      | keyCode h => exact key h
      | modifiers _ h => exact key h
      | layerModifier _ h => exact key h
      | mouse _ h => exact key h
      | sticky _ h => exact key h
    | hold _ _ =>
      simp only [NKey.Says] at hk
      obtain ⟨_, _, he, _, _, hg, _⟩ := hk
      cases he
      cases hg
    | dances _ _ =>
      simp only [NKey.Says] at hk
      obtain ⟨_, _, he, _, hg, _⟩ := hk
      cases he
      cases hg
    | layered _ _ =>
      simp only [NKey.Says] at hk
      obtain ⟨_, _, he, hg, _⟩ := hk
      cases he
      cases hg
    | chorded _ _ =>
      simp only [NKey.Says] at hk
      obtain ⟨_, _, ⟨_, he, _, hg, _⟩, _⟩ := hk
      cases he
      cases hg
    | aux _ =>
      simp only [NKey.Says] at hk
      obtain ⟨_, h, _⟩ := hk
      exact key h

/-! ## A file -/

/-- `{ key_code = 4, hold = { modifiers = { left_ctrl = true } } }`. -/
def sampleHold : Val := .record [("key_code", .num 4), ("hold", .record [("modifiers", .record [("left_ctrl", .bool true)])])]

/-- `{ automation_instructions = { on_press = [ { Tap = { key_code = { Keyboard = 5 } } } ] } }`. -/
def sampleMacro : Val :=
  .record [("automation_instructions", .record [
    ("on_press", .arr [.record [("Tap", .record [("key_code", .record [("Keyboard", .num 5)])])]])])]

/-- A file with two layers and a chord. -/
def sample : Raw where
  layers := [[sampleHold, sampleMacro], [.record [("layer_modifier", .record [("toggle", .num 1)])], .null]]
  chords := [⟨[0, 1], .record [("key_code", .num 41)]⟩]

/-- What it says. -/
def sampleSrc : Src where
  layers := [[some (.hold (.leaf (.keyCode 4)) (.leaf (.modifiers { leftCtrl := true }))),
      some (.leaf (.automation { onPress := [.tap (.fromUsage (.keyboard 5))] }))],
    [some (.leaf (.layerModifier (.toggle 1))), none]]
  chords := [⟨[0, 1], .leaf (.keyCode 41)⟩]

theorem sampleHold_says : (NKey.hold (.leaf (.keyCode 4)) (.leaf (.modifiers { leftCtrl := true }))).Says true sampleHold := by
  simp only [NKey.Says, sampleHold]
  refine ⟨_, .record [("modifiers", .record [("left_ctrl", .bool true)])], rfl, by decide +kernel, by decide +kernel, by simp [get_cons], ?_, ?_⟩
  · exact .keyCode One.record
  · refine .modifiers ⟨_, rfl, by simp [Only, names], ?_⟩ One.record
    simp [Gives, get_cons]

theorem sampleMacro_says : (NKey.leaf (.automation { onPress := [.tap (.fromUsage (.keyboard 5))] })).Says true sampleMacro := by
  simp only [NKey.Says, sampleMacro]
  refine .automation ⟨_, rfl, fun _ => by simp [Only, names], .inl ⟨_, by simp [get_cons]; rfl, ?_⟩, .inr ⟨by simp [get_cons], rfl⟩,
    .inr ⟨by simp [get_cons], rfl⟩⟩ One.record
  exact ⟨.tap (.usage (.keyboard One.record) One.record) One.record, trivial⟩

theorem sample_says : sample.Says true sampleSrc where
  options := rfl
  layers := rfl
  cells := by
    intro l i vs ks v k h1 h2 h3 h4 _
    match l, i with
    | 0, 0 => cases h1; cases h2; cases h3; cases h4; exact sampleHold_says
    | 0, 1 => cases h1; cases h2; cases h3; cases h4; exact sampleMacro_says
    | 0, i + 2 => cases h1; cases h3
    | 1, 0 =>
      cases h1; cases h2; cases h3; cases h4
      show NKey.Says true _ _
      simp only [NKey.Says]
      exact .layerModifier (.toggle (by decide) One.record) One.record
    | 1, 1 => cases h1; cases h2; cases h3; cases h4; rfl
    | 1, i + 2 => cases h1; cases h3
    | l + 2, _ => cases h1
  indices := rfl
  chords := by
    intro n c d i h1 h2 _ _
    match n with
    | 0 =>
      cases h1; cases h2
      simp only [NKey.Says]
      exact .keyCode One.record
    | n + 1 => cases h1

/-- The file compiles, as what it says (C75). -/
example : (compile sample).isSome ∧ compile sample = Codegen.compile sampleSrc := by
  refine ⟨by decide +kernel, C75_compiles sample_says ?_ ?_⟩
  · intro l hl k hk
    simp only [sampleSrc, List.mem_cons, List.not_mem_nil, or_false] at hl
    rcases hl with rfl | rfl <;> simp only [List.mem_cons, Option.some.injEq, List.not_mem_nil, or_false, reduceCtorEq] at hk
    · rcases hk with rfl | rfl <;> simp [NKey.Written]
    · subst hk; simp [NKey.Written]
  · intro c hc
    simp only [sampleSrc, List.mem_cons, List.not_mem_nil, or_false] at hc
    subst hc
    simp [NKey.Written]

/-- A tap-hold key is read back (C76). -/
example : ((toJson sampleHold).bind read).isSome := by decide +kernel

/-- A value the contract does not accept (C77). -/
example : nullableKey (.record [("keycode", .num 4)]) = false ∧ compile { layers := [[.record [("keycode", .num 4)]]] } = none :=
  ⟨by decide +kernel, C77_enforced (l := 0) (i := 0) rfl rfl (by decide) (by decide +kernel)⟩

end Verif.Nickel
