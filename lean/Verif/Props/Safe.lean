import Verif.Lemmas.SafeSrc
import Verif.Props.Halt
import Verif.StdSearch

/-!
# C63: only a full buffer stops a keymap

For keymaps with any mixture of keys, and any history of calls: no index is out of bounds, no `unwrap` or `expect` meets a
`None`, no assertion fails, no sum or difference overflows and no loop runs on. A call either ends, or stops because one
of the fixed-size buffers has no room.

The buffers: pressed keys (16), key events of one reaction (4), the schedule (32), the inputs of a waiting key, the positions
that are kept for chords. See C20, C21 and C40.
-/

namespace Verif

/-- With enough iterations, the result is a state of the keymap, or the report that a buffer is full. -/
def EndsOrFull {α : Type} (f : Nat → Res α) : Prop :=
  ∃ N, (∃ a, ∀ n, N ≤ n → f n = .ok a) ∨ ∀ n, N ≤ n → f n = .panic .capacity

theorem EndsOrFull.intro {α : Type} {f : Nat → Res α} (h : ∃ N r, r ≠ .fuel ∧ ∀ n, N ≤ n → f n = r) (hf : ∀ n, OnlyFull (f n)) : EndsOrFull f := by
  obtain ⟨N, r, hr, hN⟩ := h
  cases r with
  | ok a => exact ⟨N, .inl ⟨a, hN⟩⟩
  | fuel => exact absurd rfl hr
  | panic p =>
    have := hf N
    rw [hN N (Nat.le_refl _)] at this
    exact ⟨N, .inr fun n hn => by rw [hN n hn, show p = Panic.capacity from this]⟩

theorem Res.Fine.onlyFull {α : Type} {Q : α → Prop} {x : Res α} (h : x.Fine Q) : OnlyFull x := by
  cases x <;> first | exact h | trivial

namespace Comp

/-- C63. Tables: if all references of the keymap have their table entries, the settings fit them, no key leads back to itself,
presses are of keys of the keymap, and the clock stays `D` milliseconds (the longest delay) away from its end, then a
history of calls ends, or a buffer is full. -/
theorem C63_tables {K : Keys} {cfg : Config} {refs : List Ref} {S : Search} {D : Nat} (hs : Settings cfg D) (hK : Acyclic K)
    (hg : ∀ i r, refs[i]? = some r → Good K cfg i r) (ops : List Op) (hp : ∀ op ∈ ops, Plays refs.length op)
    (ht : ClockBelow (u32Size - D) 0 1 ops) : EndsOrFull fun n => run ⟨system K, refs, S⟩ n (KM.new (Ctx.fromConfig cfg)) ops :=
  .intro (C45_history K refs S _ hK ops) fun _ => (run_fine (sound hs hg S) (inv_new hs K refs S) hp ht).onlyFull

end Comp

namespace Codegen

open Comp (system Ctx)

/-- C63. Keymap files: what is compiled from a source without mistakes (layer keys name layers that exist, mouse buttons are
1 to 8, chords have keys; times fit their fields) never stops but for a full buffer, as long as the clock does not come
within 66 seconds of its end (49 days; `init` restarts it). -/
theorem C63_source {s : Src} {c : Compiled} {S : Search} (h : compile s = some c) (hs : s.Sane c.config.layerCount) (hz : Sizable c.config)
    (ops : List Op) (hp : ∀ op ∈ ops, Plays c.refs.length op) (ht : ClockBelow (u32Size - 65535) 0 1 ops) :
    EndsOrFull fun n => run ⟨system c.keys, c.refs, S⟩ n (KM.new (Ctx.fromConfig c.config)) ops := by
  obtain ⟨h1, h2, h3, h4⟩ := C59_sizes h
  obtain ⟨_, _, _, h5, _⟩ := C58_settings h
  refine Comp.C63_tables (D := 65535) ⟨by have := hz.tapHold; omega, by have := hz.tapDance; omega, by have := hz.chord; omega,
    by have := hz.instruction; omega, (fun t ht => by have := hz.wait t ht; omega), by have := hz.instructions; omega, ?_, ?_⟩
    (C59_acyclic h) (fun i r hr => ((C58_faithful h).2 i r hr).good h1 hs h5) ops hp ht
  · rw [h5]
    intro hm
    obtain ⟨ch, hch, he⟩ := List.mem_map.1 hm
    exact (hs.chords ch hch).1 he
  · rw [h2, h5, List.length_map]

/-! ## A keymap with all kinds of keys -/

namespace SafeDemo

/-- Tap-hold keys with a layer key, a macro and caps word; a tap-dance key with a sticky modifier and a layer key; a layer key with
a mouse button above it; a macro with all three lists; a callback; a consumer key and a custom key. The first two keys
together are a chord, which is a macro. -/
def mixed : Src where
  layers := [
    [some (.hold (.leaf (.keyCode 4)) (.leaf (.layerModifier (.hold 1)))),
     some (.dances (.leaf (.keyCode 5)) [.leaf (.sticky { leftShift := true }), .leaf (.layerModifier (.sticky 2))]),
     some (.hold (.leaf (.automation { onPress := [.tap (.fromKeyCode 11), .wait 100] })) (.leaf .capsWord)),
     some (.leaf (.layerModifier (.toggle 1))),
     some (.leaf (.automation { onPress := [.press (.fromKeyCode 6)], whilePressed := [.wait 30], onRelease := [.release (.fromKeyCode 6)] })),
     some (.leaf (.callback .reset)),
     some (.leaf (.consumer 7)), some (.leaf (.custom 8))],
    [none, some (.leaf (.keyCodeModifiers 9 { rightAlt := true })), none, some (.leaf (.mouse (.button 3))), none, none, none, none],
    [none, none, none, some (.leaf (.layerModifier (.setActiveLayersTo [1, 2]))), none, none, none, some (.leaf (.layerModifier (.default 0)))]]
  chords := [⟨[0, 1], .leaf (.automation { onPress := [.tap (.fromKeyCode 10)] })⟩]

theorem mixed_sane : mixed.Sane 2 where
  keys := by
    intro l i k h
    match l, i, h with
    | 0, 0, h => cases h; exact ⟨trivial, by decide, by decide⟩
    | 0, 1, h => cases h; exact ⟨trivial, ⟨trivial, ⟨by decide, by decide⟩, trivial⟩, by decide⟩
    | 0, 2, h => cases h; exact ⟨trivial, trivial⟩
    | 0, 3, h => cases h; exact ⟨by decide, by decide⟩
    | 0, 4, h => cases h; trivial
    | 0, 5, h => cases h; trivial
    | 0, 6, h => cases h; trivial
    | 0, 7, h => cases h; trivial
    | 0, i + 8, h => cases h
    | 1, 0, h => cases h
    | 1, 1, h => cases h; trivial
    | 1, 2, h => cases h
    | 1, 3, h => cases h; exact ⟨by decide, by decide⟩
    | 1, 4, h => cases h
    | 1, 5, h => cases h
    | 1, 6, h => cases h
    | 1, 7, h => cases h
    | 1, i + 8, h => cases h
    | 2, 0, h => cases h
    | 2, 1, h => cases h
    | 2, 2, h => cases h
    | 2, 3, h => cases h; trivial
    | 2, 4, h => cases h
    | 2, 5, h => cases h
    | 2, 6, h => cases h
    | 2, 7, h => cases h; exact Nat.zero_le _
    | 2, i + 8, h => cases h
    | l + 3, i, h => cases h
  chords := by
    intro ch hch
    simp only [mixed, List.mem_cons, List.not_mem_nil, or_false] at hch
    subst hch
    exact ⟨by decide, trivial⟩

/-- The hypotheses of C63 are met, for any history of presses of its keys that is short enough, and the theorem applies. -/
example (S : Search) (ops : List Op) (hp : ∀ op ∈ ops, Plays 8 op) (ht : ClockBelow (u32Size - 65535) 0 1 ops) :
    ∃ c, compile mixed = some c ∧ EndsOrFull fun n => run ⟨system c.keys, c.refs, S⟩ n (KM.new (Ctx.fromConfig c.config)) ops := by
  obtain ⟨c, hc⟩ : ∃ c, compile mixed = some c := ⟨_, rfl⟩
  refine ⟨c, hc, ?_⟩
  have hcc : compile mixed = some c := hc
  cases hc
  refine C63_source hcc mixed_sane ⟨by decide, by decide, by decide, by decide, ?_, by decide⟩ ops hp ht
  intro t ht
  have : t = 100 ∨ t = 30 := by
    change Automation.Instruction.wait t ∈ [.tap (.fromKeyCode 10), .tap (.fromKeyCode 11), .wait 100, .press (.fromKeyCode 6), .wait 30,
      .release (.fromKeyCode 6)] at ht
    simpa using ht
  omega

/-- The keymap of a source, after some calls: nothing, or how it stopped. -/
def after (s : Src) (ops : List Op) : Option (Res Unit) :=
  (compile s).map fun c => (fun _ => ()) <$> run ⟨system c.keys, c.refs, Search.std⟩ 9 (KM.new (Ctx.fromConfig c.config)) ops

/-- A number of quick taps of key 0. -/
def taps (n : Nat) : List Op := (List.replicate n [.input (.press 0), .tick, .tick, .input (.release 0), .tick, .tick]).flatten

/-- A tap-hold key; a macro that only waits, for a minute. -/
def tapHold : Src := { layers := [[some (.hold (.leaf (.keyCode 4)) (.leaf (.keyCode 5)))]] }

def waits : Src := { layers := [[some (.leaf (.automation { onPress := [.wait 60000] }))]] }

/-- C63. A full buffer is not out of reach: the timeout of a tap-hold key stays in the schedule when the key is released,
and so does the end of a macro. The 33rd tap within the time finds the schedule full, the 32nd does not. -/
theorem _root_.Verif.Codegen.C63_full_schedule :
    after tapHold (taps 33) = some (.panic .capacity) ∧ after tapHold (taps 32) = some (.ok ()) ∧
    after waits (taps 33) = some (.panic .capacity) ∧ after waits (taps 32) = some (.ok ()) := by
  refine ⟨?_, ?_, ?_, ?_⟩ <;> decide +kernel

/-- C63. The conditions are needed: a mouse button 9, a layer key for layer 0, the press of a key that is not in the keymap, and a
clock that runs over all stop the keymap while its buffers are empty. -/
theorem _root_.Verif.Codegen.C63_needed :
    after { layers := [[some (.leaf (.mouse (.button 9)))]] } [.input (.press 0), .tick, .report] = some (.panic .arith) ∧
    after { layers := [[some (.leaf (.layerModifier (.hold 0)))]] } [.input (.press 0), .tick] = some (.panic .arith) ∧
    after { layers := [[some (.leaf (.keyCode 4))]] } [.input (.press 1), .tick] = some (.panic .index) ∧
    after { layers := [[some (.leaf (.keyCode 4))]] } [.setMsPerTick 4294967295, .tick, .tick] = some (.panic .arith) := by
  refine ⟨?_, ?_, ?_, ?_⟩ <;> decide +kernel

end SafeDemo

end Codegen

end Verif
