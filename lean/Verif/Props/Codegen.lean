import Verif.Lemmas.CodegenRead
import Verif.Props.Board
import Verif.Props.TapHoldTime
import Verif.Props.Virt
import Verif.Props.Macro
import Verif.Props.Halt

/-!
# The keymap compiler: C58 to C61

`compile` (`Codegen.lean`) models ncl/keymap-ncl-to-json.ncl and ncl/keymap-codegen.ncl. The specification is in
`Spec/Source.lean` (what the tables have to say) and `Spec/SourceBoard.lean` (which keyboard a source stands for).
-/

namespace Verif.Codegen

open Comp (Ref Keys Config Ctx system Child Leads Acyclic)
open Board (Entry)

/-! ## C58: the tables say what the source says -/

/-- C58. A compiled keymap has one reference for each position of the base layer, and it stands for what
the source says about the position: the key of the base layer, or a layered key with the keys of all layers, inside
a chorded key if the position takes part in chords; all the way down to codes, modifier bits and instructions. -/
theorem C58_faithful {s : Src} {c : Compiled} (h : compile s = some c) :
    (∃ base, s.layers[0]? = some base ∧ c.refs.length = base.length) ∧
    ∀ i r, c.refs[i]? = some r → Position c.keys c.config.automation.instructions s i r := by
  obtain ⟨base, upper, bs, ks, js, z, st⟩ := compile_stages h
  exact ⟨⟨base, by simp [st.layers], st.lengths.2.2.2⟩, fun i r hr => st.position hr⟩

/-- C58. The settings and chords of a compiled keymap are those of the source. -/
theorem C58_settings {s : Src} {c : Compiled} (h : compile s = some c) :
    c.config.automation.duration = s.options.instructionDuration ∧
    c.config.chorded.timeout = s.options.chordTimeout ∧ c.config.chorded.requiredIdleTime = s.options.chordIdle ∧
    c.config.chorded.chords = s.chords.map (·.indices) ∧
    c.config.sticky = s.options.sticky ∧ c.config.tapDance = s.options.tapDance ∧ c.config.tapHold = s.options.tapHold := by
  obtain ⟨base, upper, bs, ks, js, z, st⟩ := compile_stages h
  rw [st.config]
  exact ⟨rfl, rfl, rfl, rfl, rfl, rfl, rfl⟩

/-! ## C59: the tables are sound -/

/-- The table entry of a reference exists. -/
def Present (K : Keys) : Ref → Prop
  | .automation i => i < K.automation.length
  | .callback i => i < K.callback.length
  | .chorded (.chorded i) => i < K.chorded.length
  | .chorded (.auxiliary i) => i < K.chordedAux.length
  | .keyboard (.keyCodeAndModifier i) => i < K.keyboard.length
  | .layered (.modifier i) => i < K.layerMods.length
  | .layered (.layered i) => i < K.layered.length
  | .sticky i => i < K.sticky.length
  | .tapDance i => i < K.tapDance.length
  | .tapHold i => i < K.tapHold.length
  | _ => True

theorem lt_of_get {α : Type} {l : List α} {i : Nat} {x : α} (h : l[i]? = some x) : i < l.length := (List.getElem?_eq_some_iff.1 h).1

section

variable {K : Keys} {I : List Automation.Instruction}

theorem Means.present {k : NKey} {r : Ref} (h : Means K I k r) : Present K r := by
  cases h with
  | leaf h =>
    cases h with
    | automation h _ _ _ => exact lt_of_get h
    | compiled h => exact lt_of_get h
    | callback h => exact lt_of_get h
    | keyCodeModifiers h _ => exact lt_of_get h
    | layerModifier h _ => exact lt_of_get h
    | sticky h _ => exact lt_of_get h
    | _ => trivial
  | hold h _ _ => exact lt_of_get h
  | dances h _ _ => exact lt_of_get h
  | layered h _ _ _ => exact lt_of_get h
  | chorded h _ _ _ => exact lt_of_get h
  | aux h _ => exact lt_of_get h

theorem Means.child {k : NKey} {r r' : Ref} (h : Means K I k r) (hc : Child K r r') : ∃ k', Means K I k' r' := by
  cases hc with
  | base hi =>
    cases h with
    | leaf h => cases h
    | layered h1 h2 h3 h4 =>
      rw [hi] at h1
      cases h1
      exact ⟨_, h2⟩
  | layer hi hm =>
    cases h with
    | leaf h => cases h
    | layered h1 h2 h3 h4 =>
      rw [hi] at h1
      cases h1
      obtain ⟨j, hj⟩ := List.getElem?_of_mem hm
      have := h3 j
      rw [hj] at this
      simp only [Option.join_some, Option.isSome_some] at this
      obtain ⟨k', hk⟩ := Option.isSome_iff_exists.1 this.symm
      exact ⟨k', h4 j _ _ (Option.join_eq_some_iff.1 hk) hj⟩
  | tap hi =>
    cases h with
    | leaf h => cases h
    | hold h1 h2 h3 =>
      rw [hi] at h1
      cases h1
      exact ⟨_, h2⟩
  | hold hi =>
    cases h with
    | leaf h => cases h
    | hold h1 h2 h3 =>
      rw [hi] at h1
      cases h1
      exact ⟨_, h3⟩
  | tapDance hi hm =>
    cases h with
    | leaf h => cases h
    | dances h1 h3 h4 =>
      rw [hi] at h1
      cases h1
      obtain ⟨j, hj⟩ := List.getElem?_of_mem hm
      have := h3 j
      rw [hj] at this
      simp only [Option.join_some, Option.isSome_some] at this
      obtain ⟨k', hk⟩ := Option.isSome_iff_exists.1 this.symm
      exact ⟨k', h4 j _ _ hk hj⟩
  | chord hi hm =>
    cases h with
    | leaf h => cases h
    | chorded h1 h2 h3 h4 =>
      rename_i cs p e
      rw [hi] at h1
      cases h1
      obtain ⟨j, hj⟩ := List.getElem?_of_mem hm
      have hl := congrArg List.length h2
      simp only [List.length_map] at hl
      have hjl := lt_of_get hj
      have hcs : cs[j]? = some (cs[j]'(by omega)) := List.getElem?_eq_getElem _
      exact ⟨_, h3 j _ _ _ _ hcs hj⟩
  | passthrough hi =>
    cases h with
    | leaf h => cases h
    | chorded h1 h2 h3 h4 =>
      rw [hi] at h1
      cases h1
      exact ⟨_, h4⟩
  | aux hi =>
    cases h with
    | leaf h => cases h
    | aux h1 h2 =>
      rw [hi] at h1
      cases h1
      exact ⟨_, h2⟩

theorem Means.leads {k : NKey} {r r' : Ref} (h : Means K I k r) (hl : Leads K r r') : Present K r' := by
  induction hl generalizing k with
  | refl => exact h.present
  | step hc _ ih =>
    obtain ⟨k', h'⟩ := h.child hc
    exact ih h'

theorem Stacks.leads {s : Src} {i : Nat} {r r' : Ref} (h : Stacks K I s i r) (hl : Leads K r r') : Present K r' := by
  cases h with
  | base _ _ h => exact h.leads hl
  | layered h0 h1 h2 h3 h4 h5 =>
    cases hl with
    | refl => exact lt_of_get h2
    | step hc hl =>
      cases hc with
      | base hi =>
        rw [hi] at h2
        cases h2
        exact h3.leads hl
      | layer hi hm =>
        rw [hi] at h2
        cases h2
        obtain ⟨j, hj⟩ := List.getElem?_of_mem hm
        have := h4 j
        rw [hj] at this
        simp only [Option.join_some, Option.isSome_some] at this
        obtain ⟨k', hk⟩ := Option.isSome_iff_exists.1 this.symm
        exact (h5 j _ _ hk hj).leads hl

theorem Position.leads {s : Src} {i : Nat} {r r' : Ref} (h : Position K I s i r) (hl : Leads K r r') : Present K r' := by
  cases h with
  | alone _ h => exact h.leads hl
  | first h1 h2 h3 h4 h5 h6 =>
    cases hl with
    | refl => exact lt_of_get h1
    | step hc hl =>
      cases hc with
      | chord hi hm =>
        rename_i id
        rw [hi] at h1
        cases h1
        obtain ⟨c, hc, _⟩ := (h5 id).1 (List.mem_map.2 ⟨_, hm, rfl⟩)
        exact (h6 _ _ c hm hc).leads hl
      | passthrough hi =>
        rw [hi] at h1
        cases h1
        exact h2.leads hl
  | member h1 h2 h3 h4 =>
    cases hl with
    | refl => exact lt_of_get h3
    | step hc hl =>
      cases hc with
      | aux hi =>
        rw [hi] at h3
        cases h3
        exact h4.leads hl

end

/-- C59. Whatever a position of a compiled keymap refers to, directly or not, is in the tables. -/
theorem C59_present {s : Src} {c : Compiled} (h : compile s = some c) {r r' : Ref} (hr : r ∈ c.refs) (hl : Leads c.keys r r') :
    Present c.keys r' := by
  obtain ⟨i, hi⟩ := List.getElem?_of_mem hr
  exact ((C58_faithful h).2 i r hi).leads hl

/-- C59. No key of a compiled keymap refers back to itself. -/
theorem C59_acyclic {s : Src} {c : Compiled} (h : compile s = some c) : Acyclic c.keys := by
  obtain ⟨base, upper, bs, ks, js, z, st⟩ := compile_stages h
  exact fun r r' hc => (st.allEnd r).no_cycle r' hc

/-- C59. So every history of calls of a compiled keymap comes to an end (C45). -/
theorem C59_ends {s : Src} {c : Compiled} (h : compile s = some c) (S : Search) (ops : List Op) :
    ∃ N r, r ≠ .fuel ∧ ∀ n, N ≤ n → run ⟨system c.keys, c.refs, S⟩ n (KM.new (Ctx.fromConfig c.config)) ops = r :=
  Comp.C45_history c.keys c.refs S (Ctx.fromConfig c.config) (C59_acyclic h) ops

/-- C59. Layered keys have one place for each layer of the firmware; the chord arrays have room for every chord, and the
number of chords is right. -/
theorem C59_sizes {s : Src} {c : Compiled} (h : compile s = some c) :
    (∀ e ∈ c.keys.layered, e.layered.length = c.config.layerCount) ∧
    c.config.maxChords = s.chords.length ∧
    (∀ ch ∈ s.chords, ch.indices.length ≤ c.config.chorded.maxChordSize) ∧
    c.config.chorded.maxPressed = 2 * c.config.chorded.maxChordSize := by
  obtain ⟨base, upper, bs, ks, js, z, st⟩ := compile_stages h
  refine ⟨fun e he => st.layered_length he, ?_, ?_, ?_⟩
  · rw [st.config, st.sizes]; rfl
  · intro ch hch
    rw [st.config, st.sizes]
    refine (le_foldl_max ((s.chords.map (·.indices)).map List.length) 0).2 _ ?_
    exact List.mem_map.2 ⟨_, List.mem_map.2 ⟨ch, hch, rfl⟩, rfl⟩
  · rw [st.config]
    exact Nat.mul_comm _ _

/-- C59. The number of layers of the firmware is the number of layers above the base layer, unless none of them has a key,
or some key is written as a layered key. -/
theorem C59_layers {s : Src} {c : Compiled} (h : compile s = some c) (hw : ∀ i l k, s.at l i = some k → k.Flat)
    (hwc : ∀ ch ∈ s.chords, ch.key.Flat) : c.config.layerCount = s.count := by
  obtain ⟨base, upper, bs, ks, js, z, st⟩ := compile_stages h
  exact st.count (fun i l k _ hk => flat_width k (hw i l k hk)) fun ch hch => flat_width _ (hwc ch hch)

/-! ## C60: from the source to the reports -/

section

variable {s : Src} {c : Compiled} {S : Search} {n : Nat}

/-- C60. A source of plain keys and layer keys makes the firmware do what the board does. -/
theorem C60_plain {layout : List Entry} (h : compile s = some c) (hr : s.ReadsPlain layout) (hf : ∀ e ∈ layout, e.Fits s.count)
    (hl : layout.length ≤ 65535) (calls : List Board.Call) (hev : ∀ e ∈ Comp.eventsIn calls, Comp.isPhysical e = true)
    (ht : Comp.ticksIn calls < u32Size) {m : Board.Queued} (hm : (Board.Queued.new s.count).run layout calls = some m) :
    ∃ km, run ⟨system c.keys, c.refs, S⟩ (n + 2) (KM.new (Ctx.fromConfig c.config)) (calls.map Comp.toOp) = .ok km ∧
      km.pressedKeys ⟨system c.keys, c.refs, S⟩ = .ok m.board.outputs ∧ km.inq = m.queue := by
  obtain ⟨h1, h2, h3⟩ := read_layout h (plainReader c.keys) hr (fun k a r hk hm => plain_read hk hm)
    (fun k a hk => by cases hk; rfl)
  rw [← h2] at hf hm
  exact Comp.C16_refines ⟨h1, hf, hl, .inl h3⟩ calls hev ht hm

/-- C60. … and it panics when the board cannot take an event (C20). -/
theorem C60_overload {layout : List Entry} (h : compile s = some c) (hr : s.ReadsPlain layout) (hf : ∀ e ∈ layout, e.Fits s.count)
    (hl : layout.length ≤ 65535) (calls : List Board.Call) (hev : ∀ e ∈ Comp.eventsIn calls, Comp.isPhysical e = true)
    (ht : Comp.ticksIn calls < u32Size) (hm : (Board.Queued.new s.count).run layout calls = none) :
    ∃ p, run ⟨system c.keys, c.refs, S⟩ (n + 2) (KM.new (Ctx.fromConfig c.config)) (calls.map Comp.toOp) = .panic p := by
  obtain ⟨h1, h2, h3⟩ := read_layout h (plainReader c.keys) hr (fun k a r hk hm => plain_read hk hm)
    (fun k a hk => by cases hk; rfl)
  rw [← h2] at hf hm
  exact Comp.C20_overload ⟨h1, hf, hl, .inl h3⟩ calls hev ht hm

/-- C60. A source of plain keys, layer keys and tap-hold keys, with the settings of the source. -/
theorem C60_tapHold {ms : Nat} {layout : List Timed.Pos} (h : compile s = some c) (hr : s.ReadsTimed layout) (hf : ∀ e ∈ layout, e.Fits s.count)
    (hl : layout.length ≤ 65535) (hms : 1 ≤ ms) (hto : 1 ≤ s.options.tapHold.timeout) (calls : List Board.Call)
    (hev : ∀ e ∈ Comp.eventsIn calls, Comp.isPhysical e = true) {t : Timed.State}
    (hs : (Timed.State.new s.count).run layout (Comp.rulesOf s.options.tapHold ms) calls = some t) :
    Comp.Shows c.keys c.refs S (n + 3) c.config ms calls t := by
  obtain ⟨h1, h2, h3⟩ := read_layout h (timedReader c.keys) hr (fun k a r hk hm => timed_read hk hm)
    (fun k a hk => by cases hk <;> rfl)
  obtain ⟨_, _, _, _, _, _, h4⟩ := C58_settings h
  rw [← h2] at hf hs
  rw [← h4] at hto hs
  exact Comp.C23_refines ⟨h1, hf, hl, hms, hto, .inl h3⟩ calls hev hs

/-- C60. A source of plain keys, layer keys, sticky modifiers, caps word and strings, with the settings of the source. -/
theorem C60_typing {ms : Nat} {layout : List Virt.Pos} (h : compile s = some c) (hr : s.ReadsVirt layout) (hf : ∀ e ∈ layout, e.Fits s.count)
    (hl : layout.length ≤ 65535) (hI : c.config.automation.instructions.length ≤ 65535) (calls : List Board.Call)
    (hev : ∀ e ∈ Comp.eventsIn calls, Comp.isPhysical e = true)
    (ht : Comp.ticksIn calls * ms + s.options.instructionDuration < u32Size) {m : Macro.Queued}
    (hm : (Macro.Queued.new s.count).run S s.options.instructionDuration ms layout (Comp.modeOf s.options.sticky) calls = some m) :
    ∃ km, run ⟨system c.keys, c.refs, S⟩ (n + 8) (Comp.fresh c.config ms) (calls.map Comp.toOp) = .ok km ∧
      km.pressedKeys ⟨system c.keys, c.refs, S⟩ = .ok m.state.board.outputs ∧ km.inq = m.queue := by
  obtain ⟨h1, h2, h3⟩ := read_layout h (virtReader c.keys c.config.automation) hr (fun k a r hk hm => virt_read hk hm)
    (fun k a hk => by cases hk <;> rfl)
  obtain ⟨h5, _, _, _, h4, _, _⟩ := C58_settings h
  rw [← h2] at hf hm
  rw [← h4] at hm
  rw [← h5] at hm ht
  exact Comp.C36_refines ⟨h1, hf, hl, .inl h3, hI⟩ calls hev ht hm

end

/-! ## C61: which sources compile -/

/-- C61. Every keymap whose macros are at most one level deep compiles: no layer is shorter than the base layer, no base key
is transparent, nothing is put on top of the caps-word key or of a key written as a layered key, chords have positions, and
sets of layers are non-empty sets. -/
theorem C61_compiles_partial {s : Src} {base : List (Option NKey)} {upper : List (List (Option NKey))} (h : s.Acceptable base upper) :
    (compile s).isSome := h.compiles

/-- A macro in a key: directly, or inside the other keys. -/
def nested : Src := { layers := [[some (.layered (.hold (.leaf (.automation { onPress := [.tap (.fromKeyCode 4)] })) (.leaf (.keyCode 5))) [some (.leaf (.keyCode 6))])]] }

/-- C61. A macro inside of a tap-hold key inside of a layered key is not numbered, and the keymap does not compile, although
each of its keys does on its own. -/
theorem C61_nested_macro_refuted : compile nested = none ∧
    (∀ k ∈ [NKey.hold (.leaf (.automation { onPress := [.tap (.fromKeyCode 4)] })) (.leaf (.keyCode 5)),
      .layered (.leaf (.automation { onPress := [.tap (.fromKeyCode 4)] })) [some (.leaf (.keyCode 6))],
      .layered (.hold (.leaf (.keyCode 4)) (.leaf (.keyCode 5))) [some (.leaf (.keyCode 6))]], (compile { layers := [[some k]] }).isSome) := by
  refine ⟨by rfl, ?_⟩
  intro k hk
  simp only [List.mem_cons, List.not_mem_nil, or_false] at hk
  rcases hk with rfl | rfl | rfl <;> rfl

/-! ## C62: what compiles can be typed on -/

/-- C62. On a compiled keymap of plain keys and layer keys whose layers exist, a history of calls panics only if the board is
overloaded: a key outside of the keymap, or more than 16 keys at a time. -/
theorem C62_safe_partial {s : Src} {c : Compiled} {S : Search} {n : Nat} {layout : List Entry} (h : compile s = some c) (hr : s.ReadsPlain layout)
    (hf : ∀ e ∈ layout, e.Fits s.count) (hl : layout.length ≤ 65535) (calls : List Board.Call)
    (hev : ∀ e ∈ Comp.eventsIn calls, Comp.isPhysical e = true) (ht : Comp.ticksIn calls < u32Size) :
    (∃ p, run ⟨system c.keys, c.refs, S⟩ (n + 2) (KM.new (Ctx.fromConfig c.config)) (calls.map Comp.toOp) = .panic p) ↔
      (Board.Queued.new s.count).run layout calls = none := by
  refine ⟨fun ⟨p, hp⟩ => ?_, fun hm => C60_overload h hr hf hl calls hev ht hm⟩
  cases hm : (Board.Queued.new s.count).run layout calls with
  | none => rfl
  | some m =>
    obtain ⟨km, h1, _⟩ := C60_plain (S := S) (n := n) h hr hf hl calls hev ht hm
    rw [h1] at hp
    cases hp

/-- One layer, with a key for layer 1 on it. -/
def missing : Src := { layers := [[some (.leaf (.layerModifier (.hold 1)))]] }

/-- Two layers; the second one is transparent. -/
def transparent : Src := { layers := [[some (.leaf (.layerModifier (.hold 1)))], [none]] }

/-- C62. A keymap whose layer key names a layer that does not exist compiles, and pressing the key is a panic. The same
if the layer exists, but has only transparent keys. -/
theorem C62_missing_layer_refuted : ∀ s ∈ [missing, transparent], ∃ c, compile s = some c ∧
    (fun _ => ()) <$> run ⟨system c.keys, c.refs, Search.std⟩ 9 (KM.new (Ctx.fromConfig c.config)) [.input (.press 0), .tick] = .panic .assertion := by
  intro s hs
  simp only [List.mem_cons, List.not_mem_nil, or_false] at hs
  rcases hs with rfl | rfl <;> exact ⟨_, rfl, by decide +kernel⟩

/-! ## Examples -/

/-- `set_active_layers_to` with a layer named twice: 2 + 2 = 4, which is layer 2. -/
example : (compile { layers := [[some (.leaf (.layerModifier (.setActiveLayersTo [1, 1])))], [some (.leaf (.keyCode 4))], [none]] }).map
    (·.keys.layerMods) = some [.setActiveLayers 4#32] := by rfl

namespace CodegenDemo

/-- tests/ncl/keymap-2key-chorded/keymap.ncl, with a macro as the key of the chord. -/
def chords : Src where
  layers := [[some (.leaf (.keyCode 4)), some (.hold (.leaf (.keyCode 5)) (.leaf (.modifiers { leftCtrl := true })))]]
  chords := [⟨[0, 1], .leaf (.automation { onPress := [.tap (.fromKeyCode 6)] })⟩]

/-- The hypotheses of C58 and C59 are met. -/
example : ∃ c, compile chords = some c ∧ c.refs = [.chorded (.chorded 0), .chorded (.auxiliary 0)] ∧
    c.keys.chorded = [⟨[(0, .automation 0)], .keyboard (.keyCode 4)⟩] ∧ c.keys.chordedAux = [.tapHold 0] ∧
    c.keys.tapHold = [⟨.keyboard (.keyCode 5), .keyboard (.modifiers 1)⟩] ∧ c.config.chorded.chords = [[0, 1]] ∧
    c.config.automation.instructions = [.tap (.fromKeyCode 6)] :=
  ⟨_, rfl, rfl, rfl, rfl, rfl, rfl, rfl⟩

/-- Two layers of plain keys: A and a key for layer 1; above A there is shift-B. -/
def plain : Src where
  layers := [[some (.leaf (.keyCode 4)), some (.leaf (.layerModifier (.hold 1)))],
    [some (.leaf (.keyCodeModifiers 5 { leftShift := true })), none]]

def plainLayout : List Entry := [.layered (.out ⟨.keyboard 4, 0⟩) [some (.out ⟨.keyboard 5, 2⟩)], .cell (.hold 1)]

theorem plain_reads : plain.ReadsPlain plainLayout where
  chords := rfl
  length := ⟨_, rfl, rfl⟩
  says := by
    intro i p hp
    match i, hp with
    | 0, hp =>
      cases hp
      refine .layered (k := .leaf (.keyCode 4)) rfl ⟨1, by omega, rfl⟩ (.leaf (.keyCode (by decide))) rfl ?_ ?_
      · intro l
        match l with
        | 0 => rfl
        | l + 1 => rfl
      · intro l k a hk ha
        match l, hk, ha with
        | 0, hk, ha =>
          cases hk
          cases ha
          exact .leaf (.keyCodeModifiers (by decide) (by unfold Spells; decide))
        | l + 1, hk, ha => cases ha
    | 1, hp =>
      cases hp
      refine .one (k := .leaf (.layerModifier (.hold 1))) rfl ?_ (.leaf (.hold 1))
      intro l hl
      match l, hl with
      | 1, _ => rfl
      | l + 2, _ => rfl
    | i + 2, hp => cases hp

/-- The hypotheses of C60 and C62 are met, and the board types shift-B for A while the layer key is held. -/
example : (compile plain).isSome ∧ plain.ReadsPlain plainLayout ∧ plain.count = 1 ∧ (∀ e ∈ plainLayout, e.Fits plain.count) ∧
    ((Board.Queued.new plain.count).run plainLayout ([.input (.press 1), .tick, .input (.press 0), .tick] : List Board.Call)).map (·.board.outputs) =
      some [⟨.keyboard 5, 2⟩] := by
  refine ⟨rfl, plain_reads, rfl, ?_, by decide +kernel⟩
  intro e he
  simp only [plainLayout, List.mem_cons, List.not_mem_nil, or_false] at he
  rcases he with rfl | rfl
  · exact ⟨trivial, rfl, by intro c hc; simp only [List.mem_cons, List.not_mem_nil, or_false, Option.some.injEq] at hc; subst hc; trivial⟩
  · exact ⟨by decide, by decide⟩

/-- The same source, from the firmware's side. -/
example : ∃ c, compile plain = some c ∧ ∃ km, run ⟨system c.keys, c.refs, Search.std⟩ 9 (KM.new (Ctx.fromConfig c.config))
    [.input (.press 1), .tick, .input (.press 0), .tick] = .ok km ∧ km.pressedKeys ⟨system c.keys, c.refs, Search.std⟩ = .ok [⟨.keyboard 5, 2⟩] := by
  obtain ⟨c, hc⟩ : ∃ c, compile plain = some c := ⟨_, rfl⟩
  obtain ⟨km, h1, h2, _⟩ := C60_plain (S := Search.std) (n := 7) hc plain_reads (by
      intro e he
      simp only [plainLayout, List.mem_cons, List.not_mem_nil, or_false] at he
      rcases he with rfl | rfl
      · exact ⟨trivial, rfl, by intro c hc; simp only [List.mem_cons, List.not_mem_nil, or_false, Option.some.injEq] at hc; subst hc; trivial⟩
      · exact ⟨by decide, by decide⟩) (by decide) [.input (.press 1), .tick, .input (.press 0), .tick] (by decide) (by decide)
    (m := ⟨⟨[(1, .hold 1), (0, .out ⟨.keyboard 5, 2⟩)], [true], none⟩, [], 0⟩) (by decide +kernel)
  exact ⟨c, hc, km, h1, h2⟩

/-- A tap-hold key (A, control when held) with B above it, and a layer key. -/
def timed : Src where
  layers := [[some (.hold (.leaf (.keyCode 4)) (.leaf (.keyCode 0xE0))), some (.leaf (.layerModifier (.toggle 1)))],
    [some (.leaf (.keyCode 5)), none]]

def timedLayout : List Timed.Pos :=
  [.layered (.tapHold (.out ⟨.keyboard 4, 0⟩) (.out ⟨.keyboard 0, 1⟩)) [some (.cell (.out ⟨.keyboard 5, 0⟩))], .act (.cell (.toggle 1))]

theorem timed_reads : timed.ReadsTimed timedLayout where
  chords := rfl
  length := ⟨_, rfl, rfl⟩
  says := by
    intro i p hp
    match i, hp with
    | 0, hp =>
      cases hp
      refine .layered (k := .hold (.leaf (.keyCode 4)) (.leaf (.keyCode 0xE0))) rfl ⟨1, by omega, rfl⟩
        (.hold (.keyCode (by decide)) (.modCode 0 (by decide) (by decide))) rfl ?_ ?_
      · intro l
        match l with
        | 0 => rfl
        | l + 1 => rfl
      · intro l k a hk ha
        match l, hk, ha with
        | 0, hk, ha =>
          cases hk
          cases ha
          exact .leaf (.keyCode (by decide))
        | l + 1, hk, ha => cases ha
    | 1, hp =>
      cases hp
      refine .one (k := .leaf (.layerModifier (.toggle 1))) rfl ?_ (.leaf (.toggle 1))
      intro l hl
      match l, hl with
      | 1, _ => rfl
      | l + 2, _ => rfl
    | i + 2, hp => cases hp

example : (compile timed).isSome ∧ timed.ReadsTimed timedLayout ∧ 1 ≤ timed.options.tapHold.timeout ∧
    ((Timed.State.new timed.count).run timedLayout (Comp.rulesOf timed.options.tapHold 1)
      ([.input (.press 0), .tick, .input (.release 0), .tick] : List Board.Call)).isSome :=
  ⟨rfl, timed_reads, by decide, by decide +kernel⟩

/-- Two strings, a sticky shift and caps word. -/
def typing : Src where
  layers := [[some (.leaf (.automation { onPress := [KeyOutput.fromKeyCode 4, .fromKeyCode 5].map .tap })),
    some (.leaf (.automation { onPress := [KeyOutput.fromKeyCode 6].map .tap })),
    some (.leaf (.sticky { leftShift := true })), some (.leaf .capsWord)]]

def typingLayout : List Virt.Pos :=
  [.act (.string [.fromKeyCode 4, .fromKeyCode 5]), .act (.string [.fromKeyCode 6]), .act (.sticky 2), .act .capsWord]

theorem typing_reads : typing.ReadsVirt typingLayout where
  chords := rfl
  length := ⟨_, rfl, rfl⟩
  says := by
    intro i p hp
    have hnone : ∀ i l, 0 < l → typing.at l i = none := by
      intro i l hl
      match l, hl with
      | l + 1, _ => rfl
    match i, hp with
    | 0, hp => cases hp; exact .one rfl (hnone 0) (.string (by decide))
    | 1, hp => cases hp; exact .one rfl (hnone 1) (.string (by decide))
    | 2, hp => cases hp; exact .one rfl (hnone 2) (.sticky (by unfold Spells; decide))
    | 3, hp => cases hp; exact .one rfl (hnone 3) .capsWord
    | i + 4, hp => cases hp

/-- The second string starts after the first, and its empty macros do too. -/
example : ∃ c, compile typing = some c ∧ typing.ReadsVirt typingLayout ∧ c.config.automation.instructions.length ≤ 65535 ∧
    c.keys.automation[1]? = some ⟨⟨2, 1⟩, ⟨3, 0⟩, ⟨3, 0⟩⟩ ∧
    ((Macro.Queued.new typing.count).run Search.std 10 1 typingLayout (Comp.modeOf typing.options.sticky)
      ([.input (.press 0), .tick, .input (.press 1), .tick, .tick] : List Board.Call)).isSome :=
  ⟨_, rfl, typing_reads, by decide, rfl, by decide +kernel⟩

/-- Acceptable sources: two layers with a macro on the second. -/
def accepted : Src where
  layers := [[some (.leaf (.keyCode 4)), some (.leaf (.layerModifier (.hold 1)))],
    [some (.leaf (.automation { onPress := [.tap (.fromKeyCode 6)] })), none]]

/-- The hypotheses of C61 are met. -/
example : accepted.Acceptable [some (.leaf (.keyCode 4)), some (.leaf (.layerModifier (.hold 1)))]
    [[some (.leaf (.automation { onPress := [.tap (.fromKeyCode 6)] })), none]] := by
  have hat : ∀ l i k, accepted.at l i = some k → (l = 0 ∧ i = 0 ∧ k = .leaf (.keyCode 4)) ∨ (l = 0 ∧ i = 1 ∧ k = .leaf (.layerModifier (.hold 1))) ∨
      (l = 1 ∧ i = 0 ∧ k = .leaf (.automation { onPress := [.tap (.fromKeyCode 6)] })) := by
    intro l i k h
    match l, i, h with
    | 0, 0, h => cases h; simp
    | 0, 1, h => cases h; simp
    | 0, i + 2, h => cases h
    | 1, 0, h => cases h; simp
    | 1, 1, h => cases h
    | 1, i + 2, h => cases h
    | l + 2, i, h => cases h
  refine ⟨rfl, by simp, ?_, by simp, ?_, by simp [accepted], ?_, by simp [accepted], ?_⟩
  · intro i hi
    match i, hi with
    | 0, _ => rfl
    | 1, _ => rfl
    | i + 2, h => simp at h; omega
  · intro i l _ _ _
    constructor
    · intro h
      rcases hat _ _ _ h with ⟨_, _, h⟩ | ⟨_, _, h⟩ | ⟨_, _, h⟩ <;> cases h
    · intro b ls h
      rcases hat _ _ _ h with ⟨_, _, h⟩ | ⟨_, _, h⟩ | ⟨_, _, h⟩ <;> cases h
  · intro i l k h
    rcases hat _ _ _ h with ⟨_, _, rfl⟩ | ⟨_, _, rfl⟩ | ⟨_, _, rfl⟩ <;> trivial
  · intro i l k _ h
    refine ⟨1, ⟨by simp, by simp, by simp [accepted]⟩, ?_⟩
    rcases hat _ _ _ h with ⟨_, _, rfl⟩ | ⟨_, _, rfl⟩ | ⟨_, _, rfl⟩
    · trivial
    · trivial
    · exact Nat.zero_lt_one

end CodegenDemo

end Verif.Codegen
