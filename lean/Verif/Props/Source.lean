import Verif.Props.Codegen
import Verif.Props.OneShot
import Verif.Props.Dance
import Verif.Props.Chords
import Verif.Lemmas.CodegenChords

/-!
# C60: from the source to the reports, for sticky layers, tap-dance keys and chords

Continues `Props/Codegen.lean`. `Spec/SourceBoard.lean` says which layout a source stands for, and
`Spec/OneShot.lean`, `Spec/Dance.lean` and `Spec/Chords.lean` what a keyboard with this layout does.
-/

namespace Verif.Codegen

open Comp (system Ctx)

section

variable {s : Src} {c : Compiled} {S : Search} {n : Nat}

/-- C60. A source of plain keys, layer keys and sticky layer keys makes the firmware do what the keyboard does. -/
theorem C60_oneShot {layout : List OneShot.Pos} (h : compile s = some c) (hr : s.ReadsOnce layout) (hf : ∀ e ∈ layout, e.Fits s.count)
    (hl : layout.length ≤ 65535) (calls : List Board.Call) (hev : ∀ e ∈ Comp.eventsIn calls, Comp.isPhysical e = true)
    (ht : Comp.ticksIn calls < u32Size) {m : OneShot.Queued} (hm : (OneShot.Queued.new s.count).run layout calls = some m) :
    ∃ km, run ⟨system c.keys, c.refs, S⟩ (n + 18) (KM.new (Ctx.fromConfig c.config)) (calls.map Comp.toOp) = .ok km ∧
      km.pressedKeys ⟨system c.keys, c.refs, S⟩ = .ok m.board.outputs ∧ km.inq = m.queue := by
  obtain ⟨h1, h2, h3⟩ := read_layout h (onceReader c.keys) hr (fun k a r hk hm => once_read hk hm)
    (fun k a hk => by cases hk <;> rfl)
  rw [← h2] at hf hm
  exact Comp.C29_refines ⟨h1, hf, hl, .inl h3⟩ calls hev ht hm

theorem danceKey_width {k : NKey} {a : Dance.Act} (hk : DanceKey k a) : k.width = 0 := by
  cases hk with
  | leaf _ => rfl
  | dances hl hp =>
    rename_i t ds cs
    have hplain : ∀ k ∈ t :: ds, k.width = 0 := by
      intro k hk
      obtain ⟨j, hj⟩ := List.getElem?_of_mem hk
      have hjl := (List.getElem?_eq_some_iff.1 hj).1
      cases hp j k _ hj (List.getElem?_eq_getElem (hl ▸ hjl))
      rfl
    have hall : ∀ ks : List NKey, (∀ k ∈ ks, k.width = 0) → widthAll ks = 0 := by
      intro ks
      induction ks with
      | nil => intro _; rfl
      | cons k ks ih =>
        intro h
        simp [widthAll, h k (.head _), ih (fun k hk => h k (.tail _ hk))]
    simp [NKey.width, hplain t (.head _), hall ds (fun k hk => hplain k (.tail _ hk))]

/-- C60. A source of plain keys, layer keys and tap-dance keys, with the settings of the source. -/
theorem C60_dance {ms : Nat} {layout : List Dance.Pos} (h : compile s = some c) (hr : s.ReadsDance layout) (hf : ∀ e ∈ layout, e.Fits s.count)
    (hl : layout.length ≤ 65535) (hms : 1 ≤ ms) (hto : 1 ≤ s.options.tapDance.timeout) (calls : List Board.Call)
    (hev : ∀ e ∈ Comp.eventsIn calls, Comp.isPhysical e = true) {t : Dance.State}
    (hs : (Dance.State.new s.count).run layout ⟨s.options.tapDance.timeout, ms⟩ calls = some t) :
    Comp.TD.Shows c.keys c.refs S (n + 3) c.config ms calls t := by
  obtain ⟨h1, h2, h3⟩ := read_layout h (danceReader c.keys) hr (fun k a r hk hm => dance_read hk hm)
    (fun k a hk => danceKey_width hk)
  obtain ⟨_, _, _, _, _, h4, _⟩ := C58_settings h
  rw [← h2] at hf hs
  rw [← h4] at hto hs
  exact Comp.TD.C25_refines ⟨h1, hf, hl, hms, hto, .inl h3⟩ calls hev hs

theorem lookup_isSome_of_mem {A : Type} {q : Nat × A} : ∀ {cs : List (Nat × A)}, q ∈ cs → (cs.lookup q.1).isSome = true
  | x :: cs, h => by
    rcases List.mem_cons.1 h with rfl | h
    · simp [List.lookup]
    · simp only [List.lookup]
      split
      · rfl
      · exact lookup_isSome_of_mem h

/-- What `C37_only`, `C38_together`, `C39_timeout` and the other theorems of `Props/Chords.lean` ask for is met by
every source with chords. -/
theorem chordsKeymap {ms : Nat} {layout : List Chords.Pos} (h : compile s = some c) (hr : s.ReadsChords layout) (hf : ∀ e ∈ layout, e.Fits s.count)
    (hl : layout.length ≤ 65535) (hms : 1 ≤ ms) (hto : 1 ≤ s.options.chordTimeout) :
    Comp.CH.ChordsKeymap c.keys c.refs c.config ms layout := by
  obtain ⟨h1, h2, h3, h4, h5, h6⟩ := read_chords h hr
  obtain ⟨_, h7, _, _, _, _, _⟩ := C58_settings h
  refine ⟨h1, h2 ▸ hf, ?_, hl, hms, h7 ▸ hto, h4, ?_, ?_⟩
  · intro i p hp
    rw [h3]
    cases hr.says i p hp with
    | plain _ _ => trivial
    | other _ _ _ => trivial
    | first _ _ _ hids _ =>
      rename_i cs e _ _
      intro id hid hhd
      simp only [Src.chordRules, List.length_map] at hid
      simp only [Chords.Rules.keys, Src.chordRules, List.getElem?_map, List.getElem?_eq_getElem hid, Option.map_some, Option.getD_some] at hhd
      have hm := (hids id).2 ⟨_, List.getElem?_eq_getElem hid, hhd⟩
      obtain ⟨q, hq, rfl⟩ := List.mem_map.1 hm
      exact lookup_isSome_of_mem hq
  · rw [h5]
    intro ch hch
    obtain ⟨x, hx, rfl⟩ := List.mem_map.1 hch
    exact hr.two x hx
  · rw [h5, h6, List.length_map]
    exact Nat.le_refl _

/-- C60. A source of plain keys and layer keys with chords, with the settings of the source. -/
theorem C60_chords {ms : Nat} {layout : List Chords.Pos} (h : compile s = some c) (hr : s.ReadsChords layout) (hf : ∀ e ∈ layout, e.Fits s.count)
    (hl : layout.length ≤ 65535) (hms : 1 ≤ ms) (hto : 1 ≤ s.options.chordTimeout) (calls : List Board.Call)
    (hev : ∀ e ∈ Comp.eventsIn calls, Comp.isPhysical e = true) {t : Chords.State}
    (hs : (Chords.State.new s.count s.chords.length).run layout (s.chordRules ms) calls = some t) :
    Comp.CH.Shows c.keys c.refs S (n + 4) c.config ms calls t := by
  obtain ⟨h1, h2, h3, h4, h5, h6⟩ := read_chords h hr
  refine Comp.CH.C37_refines (chordsKeymap h hr hf hl hms hto) calls ⟨hev, ?_⟩
  rw [h2, h3, h5, List.length_map]
  exact hs

end

namespace SourceDemo

/-- A with B above it, a sticky key for layer 1. -/
def once : Src where
  layers := [[some (.leaf (.keyCode 4)), some (.leaf (.layerModifier (.sticky 1)))], [some (.leaf (.keyCode 5)), none]]

def onceLayout : List OneShot.Pos :=
  [.layered (.cell (.out ⟨.keyboard 4, 0⟩)) [some (.cell (.out ⟨.keyboard 5, 0⟩))], .act (.oneShot 1)]

theorem once_reads : once.ReadsOnce onceLayout where
  chords := rfl
  length := ⟨_, rfl, rfl⟩
  says := by
    intro i p hp
    match i, hp with
    | 0, hp =>
      cases hp
      refine .layered (k := .leaf (.keyCode 4)) rfl ⟨1, by omega, rfl⟩ (.leaf (.keyCode (by decide))) rfl ?_ ?_
      · intro l
        match l with
        | 0 => rfl
        | l + 1 => rfl
      · intro l k a hk ha
        match l, hk, ha with
        | 0, hk, ha =>
          cases hk
          cases ha
          exact .leaf (.keyCode (by decide))
        | l + 1, hk, ha => cases ha
    | 1, hp =>
      cases hp
      refine .one (k := .leaf (.layerModifier (.sticky 1))) rfl ?_ (.sticky 1)
      intro l hl
      match l, hl with
      | 1, _ => rfl
      | l + 2, _ => rfl
    | i + 2, hp => cases hp

/-- The hypotheses of `C60_oneShot` are met: the sticky layer key is tapped, and then B is typed. -/
example : (compile once).isSome ∧ once.ReadsOnce onceLayout ∧ once.count = 1 ∧ (∀ e ∈ onceLayout, e.Fits once.count) ∧
    ((OneShot.Queued.new once.count).run onceLayout
      [.input (.press 1), .tick, .input (.release 1), .tick, .input (.press 0), .tick]).map (·.board.outputs) = some [⟨.keyboard 5, 0⟩] := by
  refine ⟨rfl, once_reads, rfl, ?_, by decide +kernel⟩
  intro e he
  simp only [onceLayout, List.mem_cons, List.not_mem_nil, or_false] at he
  rcases he with rfl | rfl
  · refine ⟨trivial, rfl, ?_⟩
    intro a ha
    simp only [List.mem_cons, List.not_mem_nil, or_false, Option.some.injEq] at ha
    subst ha
    trivial
  · exact ⟨by decide, by decide⟩

/-- A key for A, B and left shift, when tapped once, twice, three times. -/
def dance : Src where
  layers := [[some (.dances (.leaf (.keyCode 4)) [.leaf (.keyCode 5), .leaf (.modifiers { leftShift := true })])]]

def danceLayout : List Dance.Pos := [.act (.dance [.out ⟨.keyboard 4, 0⟩, .out ⟨.keyboard 5, 0⟩, .out ⟨.keyboard 0, 2⟩])]

theorem dance_reads : dance.ReadsDance danceLayout where
  chords := rfl
  length := ⟨_, rfl, rfl⟩
  says := by
    intro i p hp
    match i, hp with
    | 0, hp =>
      cases hp
      refine .one (k := .dances (.leaf (.keyCode 4)) [.leaf (.keyCode 5), .leaf (.modifiers { leftShift := true })]) rfl ?_ (.dances rfl ?_)
      · intro l hl
        match l, hl with
        | l + 1, _ => rfl
      · intro j k c hk hc
        match j, hk, hc with
        | 0, hk, hc =>
          cases hk
          cases hc
          exact .leaf (.keyCode (by decide))
        | 1, hk, hc =>
          cases hk
          cases hc
          exact .leaf (.keyCode (by decide))
        | 2, hk, hc =>
          cases hk
          cases hc
          exact .leaf (.modifiers (by unfold Spells; decide))
        | j + 3, hk, hc => cases hc
    | i + 1, hp => cases hp

/-- The hypotheses of `C60_dance` are met: the key is tapped once and pressed again, and after 200 ms B is held. -/
example : (compile dance).isSome ∧ dance.ReadsDance danceLayout ∧ (∀ e ∈ danceLayout, e.Fits dance.count) ∧
    1 ≤ dance.options.tapDance.timeout ∧
    ((Dance.State.new dance.count).run danceLayout ⟨dance.options.tapDance.timeout, 50⟩
      ([.input (.press 0), .tick, .input (.release 0), .tick, .input (.press 0), .tick, .tick, .tick, .tick] : List Board.Call)).map (·.board.outputs) =
      some [⟨.keyboard 5, 0⟩] := by
  refine ⟨rfl, dance_reads, ?_, by decide, by decide +kernel⟩
  intro e he
  simp only [danceLayout, List.mem_cons, List.not_mem_nil, or_false] at he
  subst he
  refine ⟨by decide, by decide, ?_⟩
  intro c hc
  simp only [List.mem_cons, List.not_mem_nil, or_false] at hc
  rcases hc with rfl | rfl | rfl <;> trivial

/-- A, B and C; A and B together are D. -/
def chords : Src where
  layers := [[some (.leaf (.keyCode 4)), some (.leaf (.keyCode 5)), some (.leaf (.keyCode 6))]]
  chords := [⟨[0, 1], .leaf (.keyCode 7)⟩]

def chordsLayout : List Chords.Pos :=
  [.first [(0, .cell (.out ⟨.keyboard 7, 0⟩))] (.cell (.out ⟨.keyboard 4, 0⟩)), .other (.cell (.out ⟨.keyboard 5, 0⟩)),
    .plain (.cell (.out ⟨.keyboard 6, 0⟩))]

theorem chords_one : ∀ c ∈ chords.chords, c = ⟨[0, 1], .leaf (.keyCode 7)⟩ := by
  intro c hc
  simpa [chords] using hc

theorem chords_reads : chords.ReadsChords chordsLayout where
  some' := by simp [chords]
  two := by
    intro c hc
    rw [chords_one c hc]
    exact ⟨0, by simp, 1, by simp, by decide⟩
  keys := by
    intro c hc
    rw [chords_one c hc]
    exact ⟨_, .leaf (.keyCode (by decide))⟩
  length := ⟨_, rfl, rfl⟩
  says := by
    intro i p hp
    have hup : ∀ j l, 0 < l → chords.at l j = none := by
      intro j l hl
      match l, hl with
      | l + 1, _ => rfl
    match i, hp with
    | 0, hp =>
      cases hp
      refine .first ⟨_, .head _, rfl⟩ (.one (k := .leaf (.keyCode 4)) rfl (hup 0) (.leaf (.keyCode (by decide)))) (by simp) ?_ ?_
      · intro n
        match n with
        | 0 => exact ⟨fun _ => ⟨_, rfl, rfl⟩, fun _ => by simp⟩
        | n + 1 => exact ⟨fun h => by simp at h, fun ⟨c, h, _⟩ => by simp [chords] at h⟩
      · intro n x c hx hc
        simp only [List.mem_cons, List.not_mem_nil, or_false, Prod.mk.injEq] at hx
        obtain ⟨rfl, rfl⟩ := hx
        cases hc
        exact ⟨_, .leaf (.keyCode (by decide)), rfl⟩
    | 1, hp =>
      cases hp
      refine .other ⟨_, .head _, by simp⟩ ?_ (.one (k := .leaf (.keyCode 5)) rfl (hup 1) (.leaf (.keyCode (by decide))))
      intro c hc
      rw [chords_one c hc]
      simp
    | 2, hp =>
      cases hp
      refine .plain ?_ (.one (k := .leaf (.keyCode 6)) rfl (hup 2) (.leaf (.keyCode (by decide))))
      intro c hc
      rw [chords_one c hc]
      simp
    | i + 3, hp => cases hp

/-- The hypotheses of `C60_chords` are met: A and B are pressed together, and D is held. -/
example : (compile chords).isSome ∧ chords.ReadsChords chordsLayout ∧ (∀ e ∈ chordsLayout, e.Fits chords.count) ∧ 1 ≤ chords.options.chordTimeout ∧
    ((Chords.State.new chords.count chords.chords.length).run chordsLayout (chords.chordRules 1)
      ([.input (.press 1), .tick, .input (.press 0), .tick, .tick, .tick] : List Board.Call)).map (·.board.outputs) = some [⟨.keyboard 7, 0⟩] := by
  refine ⟨rfl, chords_reads, ?_, by decide, by decide +kernel⟩
  intro e he
  simp only [chordsLayout, List.mem_cons, List.not_mem_nil, or_false] at he
  rcases he with rfl | rfl | rfl
  · refine ⟨trivial, ?_⟩
    intro p hp
    simp only [List.mem_cons, List.not_mem_nil, or_false] at hp
    subst hp
    trivial
  · trivial
  · trivial

end SourceDemo

end Verif.Codegen
