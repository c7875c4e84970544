import Verif.Spec.SafeTables
import Verif.Lemmas.Safe
import Verif.Lemmas.KeysOk

/-!
# The aggregate key system panics only if a buffer is full

`Verif.Sound` for the tables and settings of `Spec/SafeTables`.
-/

namespace Verif

theorem SchEv.map_after {E F : Type} {f : E → F} {e : SchEv E} {d : Nat} : (e.map f).schedule = .after d ↔ e.schedule = .after d := Iff.rfl

theorem EsOk.mapEv {E F : Type} {keys D : Nat} {P : F → Prop} {f : E → F} {es : KeyEvents E} (h : EsOk keys D (fun e => P (f e)) es) :
    EsOk keys D P (KeyEvents.mapEv f es) := by
  intro x hx
  obtain ⟨y, hy, rfl⟩ := List.mem_map.1 hx
  obtain ⟨h1, h2⟩ := h y hy
  refine ⟨?_, h2⟩
  obtain ⟨s, e⟩ := y
  cases e <;> exact h1

theorem EsOk.mapEv' {E F : Type} {keys D : Nat} {P : F → Prop} {Q : E → Prop} {f : E → F} (hf : ∀ e, Q e → P (f e)) {es : KeyEvents E} (h : EsOk keys D Q es) :
    EsOk keys D P (KeyEvents.mapEv f es) := by
  refine EsOk.mapEv ?_
  intro x hx
  obtain ⟨h1, h2⟩ := h x hx
  refine ⟨?_, h2⟩
  obtain ⟨s, e⟩ := x
  cases e with
  | key i e => exact hf _ h1
  | input e => exact h1
  | keymap e => exact h1

/-- One event, at once. -/
theorem EsOk.imm {E : Type} {keys D : Nat} {P : E → Prop} {e : Event E} (h : EvOk keys P e) : EsOk keys D P [SchEv.imm e] :=
  .cons h (fun d hd => by cases hd) .nil

/-- One event, later. -/
theorem EsOk.after {E : Type} {keys D d : Nat} {P : E → Prop} {e : Event E} (h : EvOk keys P e) (hd : d ≤ D) : EsOk keys D P [SchEv.after d e] :=
  .cons h (fun d' hd' => by cases hd'; exact hd) .nil

theorem EsOk.immCons {E : Type} {keys D : Nat} {P : E → Prop} {e : Event E} {es : KeyEvents E} (h : EvOk keys P e) (hs : EsOk keys D P es) :
    EsOk keys D P (SchEv.imm e :: es) :=
  .cons h (fun d hd => by cases hd) hs

theorem EsOk.afterCons {E : Type} {keys D d : Nat} {P : E → Prop} {e : Event E} {es : KeyEvents E} (h : EvOk keys P e) (hd : d ≤ D)
    (hs : EsOk keys D P es) : EsOk keys D P (SchEv.after d e :: es) :=
  .cons h (fun d' hd' => by cases hd'; exact hd) hs

theorem push_fine {E : Type} (es : KeyEvents E) (e : SchEv E) : (es.push e).Fine (· = es ++ [e]) := pushCap_fine _ _ _

theorem extend_fine {E : Type} : ∀ (es es' : KeyEvents E), (es.extend es').Fine (· = es ++ es')
  | es, [] => (List.append_nil es).symm
  | es, e :: es' => by
    refine (push_fine es e).bind ?_
    rintro _ rfl
    simpa using extend_fine (es ++ [e]) es'

namespace Comp

variable {K : Keys} {cfg : Config} {D keys : Nat}

/-- The events of the keys carry what the contexts expect. -/
def EvFits (cfg : Config) : Ev → Prop
  | .automation (.enqueue e) => Runnable cfg e
  | .automation _ => True
  | .capsWord _ => True
  | .chorded (.chordResolved (.chord id)) => id < cfg.chorded.chords.length
  | .chorded _ => True
  | .layered (.activated l) => IsLayer cfg l
  | .layered (.deactivated l) => IsLayer cfg l
  | .layered (.toggled l) => IsLayer cfg l
  | .layered (.stickyActivated l) => IsLayer cfg l
  | .layered (.set _) => True
  | .layered (.setDefault l) => l ≤ cfg.layerCount
  | .sticky _ => True
  | .tapDance _ => True
  | .tapHold _ => True

/-- The contexts. -/
structure CtxFits (cfg : Config) (c : Ctx) : Prop where
  automation : c.automation.config = cfg.automation
  queue : c.automation.queue ≠ [] ∧ ∀ e ∈ c.automation.queue, Runnable cfg e
  chorded : c.chorded.config = cfg.chorded
  flags : c.chorded.pressedChords.length = cfg.chorded.chords.length
  latest : ∀ id, c.chorded.latest = some id → id < cfg.chorded.chords.length
  layers : c.layered.layers.length = cfg.layerCount
  default : ∀ l, c.layered.defaultLayer = some l → IsLayer cfg l
  tapDance : c.tapDance = cfg.tapDance
  tapHold : c.tapHold.config = cfg.tapHold

/-- The states of pressed keys. -/
def KsFits (K : Keys) (cfg : Config) (idx : Nat) (r : Ref) : KS → Prop
  | .noOp => True
  | _ => Good K cfg idx r

/-- The states of pending keys. -/
def PksFits (K : Keys) (cfg : Config) (idx : Nat) (r : Ref) : PKS → Prop
  | .chorded p => (∃ x, r = .chorded x) ∧ Good K cfg idx r ∧ ∀ cs ∈ p.possible, cs.index < cfg.chorded.chords.length
  | .tapDance p => (∃ i k, r = .tapDance i ∧ K.tapDance[i]? = some k ∧ (p.pressCount = 0 ∨ p.pressCount + 1 < k.definitionCount)) ∧
      Good K cfg idx r
  | .tapHold _ => (∃ i, r = .tapHold i) ∧ Good K cfg idx r

theorem Good.fits {idx : Nat} {r : Ref} (h : Good K cfg idx r) : Fits K cfg idx r := h r (.refl r)

theorem Good.child {idx : Nat} {r r' : Ref} (h : Good K cfg idx r) (hc : Child K r r') : Good K cfg idx r' :=
  fun _ hl => h _ (.step hc hl)

theorem ctxFits_new (hs : Settings cfg D) : CtxFits cfg (Ctx.fromConfig cfg) where
  automation := rfl
  queue := ⟨by simp [Ctx.fromConfig, Automation.Ctx.fromConfig, Automation.queueSize], by
    intro e he
    simp only [Ctx.fromConfig, Automation.Ctx.fromConfig, List.mem_replicate] at he
    rw [he.2]
    exact .inl rfl⟩
  chorded := rfl
  flags := by simp [Ctx.fromConfig, Chorded.Ctx.fromConfig, hs.flags]
  latest := fun id h => by cases h
  layers := by simp [Ctx.fromConfig, Layered.Ctx.new]
  default := fun l h => by cases h
  tapDance := rfl
  tapHold := rfl

/-! ## Automation -/

section

variable (hs : Settings cfg D)

include hs

theorem keyEventsFor_fine (idx : Nat) {e : Automation.Execution} (he : Runnable cfg e) (hne : e.isEmpty = false) :
    (Automation.keyEventsFor cfg.automation idx e).Fine (EsOk keys D fun x => EvFits cfg (.automation x)) := by
  have hl : e.start < cfg.automation.instructions.length := by
    simp only [Automation.Execution.isEmpty, decide_eq_false_iff_not] at hne
    rcases he with he | he <;> omega
  have hn : EvOk keys (fun x => EvFits cfg (.automation x)) (.key idx (if e.length > 1 then Automation.Ev.nextInstruction else .executionFinished)) := by
    show EvFits cfg (.automation _)
    split <;> trivial
  unfold Automation.keyEventsFor
  refine (Res.Fine.index (Q := fun x => x ∈ cfg.automation.instructions) (List.getElem?_eq_getElem hl) (List.getElem_mem hl)).bind ?_
  intro inst hi
  cases inst with
  | noOp => exact .after hn hs.instruction
  | press ko => exact .immCons trivial (.after hn hs.instruction)
  | release ko => exact .immCons trivial (.after hn hs.instruction)
  | tap ko => exact .immCons trivial (.afterCons trivial hs.instruction (.after hn hs.instruction))
  | wait t => exact .after hn (hs.wait t hi)

/-- The automation part of the contexts. -/
structure AutoFits (cfg : Config) (c : Automation.Ctx) : Prop where
  config : c.config = cfg.automation
  queue : c.queue ≠ []
  runs : ∀ e ∈ c.queue, Runnable cfg e

omit hs in
theorem incr_fine (hs : Settings cfg D) {e : Automation.Execution} (he : Runnable cfg e) : e.incr.Fine (Runnable cfg) := by
  have := hs.instructions
  unfold Automation.Execution.incr
  split
  · rcases he with he | he
    · omega
    · rw [if_pos (by omega)]
      right
      show e.start + 1 + (e.length - 1) ≤ _
      omega
  · exact he

theorem executeHead_fine (idx : Nat) {c : Automation.Ctx} (hc : AutoFits cfg c) (hne : ∀ e, c.queue.head? = some e → e.isEmpty = false) :
    (c.executeHead idx).Fine fun x => EsOk keys D (fun x => EvFits cfg (.automation x)) x.2 ∧ AutoFits cfg x.1 := by
  obtain ⟨config, queue⟩ := c
  obtain ⟨rfl, hq, hr⟩ := hc
  cases queue with
  | nil => exact absurd rfl hq
  | cons h t =>
    unfold Automation.Ctx.executeHead
    refine (Res.Fine.index (Q := (· = h)) (show (h :: t)[0]? = some h from rfl) rfl).bind ?_
    rintro _ rfl
    rename_i h
    refine (keyEventsFor_fine (keys := keys) hs idx (hr h (.head _)) (hne h rfl)).bind ?_
    intro es hes
    refine (incr_fine hs (hr h (.head _))).bind ?_
    intro h' hh'
    have htail : ∀ e ∈ t ++ [Automation.Execution.empty], Runnable cfg e := by
      intro e he
      rcases List.mem_append.1 he with he | he
      · exact hr e (.tail _ he)
      · simp only [List.mem_cons, List.not_mem_nil, or_false] at he
        rw [he]; exact .inl rfl
    split
    · have hq' : t ++ [Automation.Execution.empty] ≠ [] := by simp
      dsimp only [List.tail_cons]
      refine (Res.Fine.index (Q := fun _ => True) (List.getElem?_eq_getElem (by simp)) trivial).bind ?_
      intro next _
      split
      · exact ⟨hes, rfl, hq', htail⟩
      · refine (push_fine _ _).bind ?_
        rintro es' rfl
        exact ⟨hes.append (.after trivial hs.instruction), rfl, hq', htail⟩
    · refine ⟨hes, rfl, by simp, ?_⟩
      intro e he
      rcases List.mem_cons.1 he with rfl | he
      · exact hh'
      · exact hr e (.tail _ he)

theorem automation_fine {c : Automation.Ctx} (hc : AutoFits cfg c) {ev : Event Automation.Ev} (hev : EvOk keys (fun x => EvFits cfg (.automation x)) ev) :
    (c.handleEvent ev).Fine fun x => EsOk keys D (fun x => EvFits cfg (.automation x)) x.2 ∧ AutoFits cfg x.1 := by
  obtain ⟨config, queue⟩ := c
  cases queue with
  | nil => exact absurd rfl hc.queue
  | cons h t =>
    have hidx : ∀ (Q : Automation.Execution → Prop), Q h → (Res.index (h :: t) 0).Fine Q := fun Q hQ =>
      Res.Fine.index (show (h :: t)[0]? = some h from rfl) hQ
    unfold Automation.Ctx.handleEvent
    split
    · rename_i idx e
      split
      · exact ⟨.nil, hc⟩
      · rename_i he
        refine (hidx (· = h) rfl).bind ?_
        rintro _ rfl
        rename_i h
        have henq : (Automation.Ctx.mk config (h :: t)).enqueue e = ⟨config, Automation.putFirstEmpty e (h :: t)⟩ := by
          unfold Automation.Ctx.enqueue
          rw [if_neg he]
        rw [henq]
        have hmem : ∀ (q : List Automation.Execution) x, x ∈ Automation.putFirstEmpty e q → x = e ∨ x ∈ q := by
          intro q
          induction q with
          | nil => intro x hx; cases hx
          | cons y q ih =>
            intro x hx
            simp only [Automation.putFirstEmpty] at hx
            split at hx
            · rcases List.mem_cons.1 hx with rfl | hx
              · exact .inl rfl
              · exact .inr (.tail _ hx)
            · rcases List.mem_cons.1 hx with rfl | hx
              · exact .inr (.head _)
              · rcases ih x hx with h | h
                · exact .inl h
                · exact .inr (.tail _ h)
        have hfits : AutoFits cfg ⟨config, Automation.putFirstEmpty e (h :: t)⟩ := by
          refine ⟨hc.config, ?_, ?_⟩
          · simp only [Automation.putFirstEmpty]
            split <;> simp
          · intro x hx
            rcases hmem _ x hx with rfl | hx
            · exact hev
            · exact hc.runs x hx
        split
        · rename_i hh
          refine executeHead_fine hs idx hfits ?_
          intro x hx
          simp only [Automation.putFirstEmpty, hh, if_true, List.head?_cons, Option.some.injEq] at hx
          rw [← hx]
          simpa using he
        · exact ⟨.nil, hfits⟩
    · rename_i idx
      refine (hidx (· = h) rfl).bind ?_
      rintro _ rfl
      rename_i h
      split
      · exact ⟨.nil, hc⟩
      · rename_i hh
        refine executeHead_fine hs idx hc ?_
        intro x hx
        cases hx
        simpa using hh
    · exact ⟨.nil, hc⟩

end

/-! ## Layers -/

/-- The layers part of the contexts. -/
structure LayFits (cfg : Config) (c : Layered.Ctx) : Prop where
  layers : c.layers.length = cfg.layerCount
  default : ∀ l, c.defaultLayer = some l → IsLayer cfg l

theorem setLayer_fine {ls : List Layered.Activity} {l : Nat} (hl : ls.length = cfg.layerCount) (h : IsLayer cfg l) (a : Layered.Activity) :
    (Layered.setLayer ls l a).Fine fun ls' => ls'.length = cfg.layerCount := by
  unfold Layered.setLayer
  rw [if_pos (by have := h.2; omega), if_neg (by have := h.1; omega)]
  simpa [Res.Fine] using hl

theorem setLayers_fine (s : Layered.LayerBitset) : ∀ {lis : List Nat} {ls : List Layered.Activity}, (∀ l ∈ lis, IsLayer cfg l) → ls.length = cfg.layerCount →
    (Layered.setLayers s ls lis).Fine fun ls' => ls'.length = cfg.layerCount
  | [], _, _, hl => hl
  | l :: lis, _, h, hl => (setLayer_fine hl (h l (.head _)) _).bind fun _ hl' => setLayers_fine s (fun l hm => h l (.tail _ hm)) hl'

theorem stickyLayerFrom_le : ∀ {ls : List Layered.Activity} {i l : Nat}, Layered.stickyLayerFrom i ls = some l → 1 ≤ l ∧ l ≤ i + ls.length
  | [], _, _, h => by cases h
  | a :: ls, i, l, h => by
    cases a with
    | sticky =>
      simp only [Layered.stickyLayerFrom, Option.some.injEq] at h
      simp only [List.length_cons]
      omega
    | regular =>
      have := stickyLayerFrom_le (ls := ls) (i := i + 1) h
      simp only [List.length_cons]
      omega
    | inactive =>
      have := stickyLayerFrom_le (ls := ls) (i := i + 1) h
      simp only [List.length_cons]
      omega

theorem layered_fine {c : Layered.Ctx} (hc : LayFits cfg c) {ev : Event Layered.Ev} (hev : EvOk keys (fun x => EvFits cfg (.layered x)) ev) :
    (c.handleEvent ev).Fine (LayFits cfg) := by
  have hst : ∀ l, c.stickyLayer = some l → IsLayer cfg l := fun l h => by
    have := stickyLayerFrom_le h
    rw [hc.layers] at this
    exact ⟨this.1, by omega⟩
  cases ev with
  | input e =>
    cases e with
    | press idx =>
      simp only [Layered.Ctx.handleEvent]
      split
      · rename_i l hl
        split
        · exact (setLayer_fine hc.layers (hst l hl) _).bind fun ls hls => ⟨hls, hc.default⟩
        · exact ⟨hc.layers, hc.default⟩
      · exact hc
    | release idx =>
      simp only [Layered.Ctx.handleEvent]
      split
      · rename_i l hl
        split
        · exact (setLayer_fine hc.layers (hst l hl) _).bind fun ls hls => ⟨hls, hc.default⟩
        · exact hc
      · exact hc
    | vpress => exact hc
    | vrelease => exact hc
  | keymap e => exact hc
  | key i e =>
    simp only [Layered.Ctx.handleEvent]
    cases e with
    | activated l => exact (setLayer_fine hc.layers hev _).bind fun ls hls => ⟨hls, hc.default⟩
    | deactivated l => exact (setLayer_fine hc.layers hev _).bind fun ls hls => ⟨hls, hc.default⟩
    | stickyActivated l => exact (setLayer_fine hc.layers hev _).bind fun ls hls => ⟨hls, hc.default⟩
    | toggled l =>
      have hl : IsLayer cfg l := hev
      have h1 := hl.1
      have h2 := hl.2
      simp only [Layered.Ctx.handleLayerEvent]
      rw [if_neg (by omega)]
      refine (Res.Fine.index (Q := fun _ => True) (List.getElem?_eq_getElem (i := l - 1) (by rw [hc.layers]; omega)) trivial).bind ?_
      intro a _
      exact (setLayer_fine hc.layers hl _).bind fun ls hls => ⟨hls, hc.default⟩
    | set s =>
      refine (setLayers_fine s ?_ hc.layers).bind fun ls hls => ⟨hls, hc.default⟩
      intro l hl
      simp only [List.mem_range'_1, hc.layers] at hl
      exact ⟨hl.1, by omega⟩
    | setDefault l =>
      refine ⟨hc.layers, ?_⟩
      intro l' hl'
      dsimp only at hl'
      split at hl'
      · cases hl'
      · cases hl'
        rename_i hne
        exact ⟨by omega, hev⟩

theorem firstActive_fine {R : Type} {layered : List (Option R)} : ∀ {ls : List Nat}, (∀ l ∈ ls, 1 ≤ l ∧ l ≤ layered.length) →
    (Layered.firstActive layered ls).Fine fun _ => True
  | [], _ => trivial
  | l :: ls, h => by
    have hl := h l (.head _)
    refine (Res.Fine.index (Q := fun _ => True) (List.getElem?_eq_getElem (i := l - 1) (by omega)) trivial).bind ?_
    intro o _
    cases o with
    | some r => trivial
    | none => exact firstActive_fine fun l hm => h l (.tail _ hm)

theorem activeLayersFrom_le : ∀ {ls : List Layered.Activity} {i l : Nat}, l ∈ Layered.activeLayersFrom i ls → i < l ∧ l ≤ i + ls.length
  | [], _, _, h => by cases h
  | a :: ls, i, l, h => by
    simp only [Layered.activeLayersFrom, List.mem_append] at h
    rcases h with h | h
    · have := activeLayersFrom_le (ls := ls) (i := i + 1) h
      simp only [List.length_cons]
      omega
    · split at h
      · simp only [List.mem_cons, List.not_mem_nil, or_false] at h
        simp only [List.length_cons]
        omega
      · cases h

theorem layeredKey_fine {R : Type} {k : Layered.LayeredKey R} {c : Layered.Ctx} (hc : LayFits cfg c) (hk : cfg.layerCount ≤ k.layered.length) :
    (k.newPressedKey c).Fine fun _ => True := by
  unfold Layered.LayeredKey.newPressedKey
  refine Res.Fine.bind (Q := fun _ => True) ?_ fun _ _ => trivial
  unfold Layered.highestActiveKey
  refine (firstActive_fine (fun l hl => ?_)).bind ?_
  · have := activeLayersFrom_le hl
    rw [hc.layers] at this
    omega
  · intro o _
    cases o with
    | some r => trivial
    | none =>
      cases hd : c.defaultLayer with
      | none => trivial
      | some l =>
        have hl := hc.default l hd
        have h1 := hl.1
        have h2 := hl.2
        exact Res.Fine.index (Q := fun _ => True) (List.getElem?_eq_getElem (i := l - 1) (by omega)) trivial

/-! ## Sticky modifiers -/

theorem releaseAll_fine : ∀ {ms : List Byte} {es : KeyEvents Sticky.Ev}, EsOk keys D (fun x => EvFits cfg (.sticky x)) es →
    (Sticky.releaseAll es ms).Fine (EsOk keys D fun x => EvFits cfg (.sticky x))
  | [], _, h => h
  | m :: ms, es, h => by
    refine (push_fine _ _).bind ?_
    rintro es' rfl
    exact releaseAll_fine (h.append (.imm trivial))

theorem sticky_fine (c : Sticky.Ctx) (ev : Event Sticky.Ev) :
    (c.handleEvent ev).Fine fun x => EsOk keys D (fun x => EvFits cfg (.sticky x)) x.2 := by
  unfold Sticky.Ctx.handleEvent
  split
  · split <;> exact .nil
  · split <;> exact .nil
  · split
    · exact (releaseAll_fine .nil).bind fun es h => h
    · exact .nil
  · split
    · exact (releaseAll_fine .nil).bind fun es h => h
    · exact .nil
  · exact .nil

/-! ## Chords -/

/-- The chords part of the contexts. -/
structure ChFits (cfg : Config) (c : Chorded.Ctx) : Prop where
  config : c.config = cfg.chorded
  flags : c.pressedChords.length = cfg.chorded.chords.length
  latest : ∀ id, c.latest = some id → id < cfg.chorded.chords.length

theorem pressedFrom_fine {chords : List _root_.Verif.Chorded.Chord} : ∀ {bs : List Bool} {i : Nat}, i + bs.length ≤ chords.length →
    (Chorded.pressedFrom chords i bs).Fine fun ps => ∀ p ∈ ps, p.1 < chords.length
  | [], _, _ => fun p hp => by cases hp
  | true :: bs, i, h => by
    simp only [List.length_cons] at h
    refine (Res.Fine.index (Q := fun _ => True) (List.getElem?_eq_getElem (i := i) (by omega)) trivial).bind ?_
    intro c _
    refine (pressedFrom_fine (bs := bs) (i := i + 1) (by omega)).bind ?_
    intro rest hr p hp
    rcases List.mem_cons.1 hp with rfl | hp
    · show i < chords.length
      omega
    · exact hr p hp
  | false :: bs, i, h => pressedFrom_fine (bs := bs) (i := i + 1) (by simp only [List.length_cons] at h; omega)

theorem pressed_fine {c : Chorded.Ctx} (hc : ChFits cfg c) : c.pressed.Fine fun ps => ∀ p ∈ ps, p.1 < cfg.chorded.chords.length := by
  unfold Chorded.Ctx.pressed
  rw [hc.config]
  exact pressedFrom_fine (by rw [hc.flags]; omega)

theorem spanInsertAll_fine {cap : Nat} : ∀ {is span : List Nat}, (Chorded.spanInsertAll cap span is).Fine fun _ => True
  | [], _ => trivial
  | i :: is, span => by
    refine Res.Fine.bind (Q := fun _ => True) ?_ fun _ _ => spanInsertAll_fine
    unfold Chorded.spanInsert
    split
    · trivial
    · exact (pushCap_fine _ _ _).mono fun _ _ => trivial

theorem spanOf_fine {cap : Nat} : ∀ {ps : List (Nat × _root_.Verif.Chorded.Chord)} {span : List Nat}, (Chorded.spanOf cap span ps).Fine fun _ => True
  | [], _ => trivial
  | (_, _) :: _, _ => spanInsertAll_fine.bind fun _ _ => spanOf_fine

theorem span_fine {c : Chorded.Ctx} (hc : ChFits cfg c) : c.span.Fine fun _ => True :=
  (pressed_fine hc).bind fun _ _ => spanOf_fine

theorem enumFrom_lt {α : Type} : ∀ {xs : List α} {i : Nat} {p : Nat × α}, p ∈ Chorded.enumFrom i xs → p.1 < i + xs.length
  | [], _, _, h => by cases h
  | x :: xs, i, p, h => by
    simp only [Chorded.enumFrom, List.mem_cons] at h
    simp only [List.length_cons]
    rcases h with rfl | h
    · show i < _
      omega
    · have := enumFrom_lt h
      omega

theorem chordsFor_fine {c : Chorded.Ctx} (hc : ChFits cfg c) (idx : Nat) :
    (c.chordsFor idx).Fine fun css => ∀ cs ∈ css, cs.index < cfg.chorded.chords.length := by
  unfold Chorded.Ctx.chordsFor
  have h1 : (c.pressedChordWithIndex idx).Fine fun o => ∀ cs, o = some cs → cs.index < cfg.chorded.chords.length := by
    refine (pressed_fine hc).bind ?_
    intro ps hps cs hcs
    obtain ⟨p, hp, rfl⟩ := Option.map_eq_some_iff.1 hcs
    exact hps p (List.mem_of_find?_eq_some hp)
  refine h1.bind ?_
  intro o ho
  cases o with
  | some cs =>
    intro cs' hcs'
    simp only [List.mem_cons, List.not_mem_nil, or_false] at hcs'
    rw [hcs']
    exact ho cs rfl
  | none =>
    refine (span_fine hc).bind ?_
    intro span _ cs hcs
    obtain ⟨p, hp, rfl⟩ := List.mem_map.1 hcs
    have := enumFrom_lt (List.mem_filter.1 (List.mem_filter.1 hp).1).1
    rw [hc.config] at this
    show p.1 < _
    omega

/-- A resolution is of a chord that exists. -/
def ResFits (cfg : Config) : Chorded.Resolution → Prop
  | .chord id => id < cfg.chorded.chords.length
  | .passthrough => True

theorem satisfied_lt {p : Chorded.PKS} (hp : ∀ cs ∈ p.possible, cs.index < cfg.chorded.chords.length) {id : Nat} (h : p.satisfied = some id) :
    id < cfg.chorded.chords.length := by
  obtain ⟨cs, hcs, rfl⟩ := Option.map_eq_some_iff.1 h
  exact hp cs (List.mem_of_find?_eq_some hcs)

theorem checkResolution_fits {p : Chorded.PKS} (hp : ∀ cs ∈ p.possible, cs.index < cfg.chorded.chords.length) {r : Chorded.Resolution}
    (h : p.checkResolution = some r) : ResFits cfg r := by
  unfold Chorded.PKS.checkResolution at h
  split at h
  · cases h
    trivial
  · rename_i cs heq
    split at h
    · cases h
      exact hp cs (heq ▸ .head _)
    · cases h
  · cases h

theorem pksEvent_fine {p : Chorded.PKS} (hp : ∀ cs ∈ p.possible, cs.index < cfg.chorded.chords.length) (m idx : Nat) (ev : Event Chorded.Ev) :
    (p.handleEvent m idx ev).Fine fun x => (∀ cs ∈ x.1.possible, cs.index < cfg.chorded.chords.length) ∧ ∀ r, x.2 = some r → ResFits cfg r := by
  have hsat : ∀ r, some (match p.satisfied with | some id => Chorded.Resolution.chord id | none => .passthrough) = some r → ResFits cfg r := by
    intro r hr
    split at hr
    · rename_i id hid
      cases hr
      exact satisfied_lt hp hid
    · cases hr
      trivial
  unfold Chorded.PKS.handleEvent
  split
  · exact ⟨hp, hsat⟩
  · rename_i k
    dsimp only
    split
    · have hp' : ∀ cs ∈ (p.possible.filter (fun cs => Chorded.Chord.hasIndex cs.chord k)).map
          (fun cs => { cs with isSatisfied := Chorded.Chord.isSatisfiedBy cs.chord (k :: p.pressedIndices) }), cs.index < cfg.chorded.chords.length := by
        intro cs hcs
        obtain ⟨x, hx, rfl⟩ := List.mem_map.1 hcs
        exact hp x (List.mem_filter.1 hx).1
      refine ⟨hp', ?_⟩
      intro r hr
      dsimp only at hr
      split at hr
      · rename_i id _ hid
        cases hr
        exact satisfied_lt hp hid
      · exact checkResolution_fits hp' hr
    · rfl
  · split
    · exact ⟨hp, hsat⟩
    · exact ⟨hp, fun r h => by cases h⟩
  · exact ⟨hp, fun r h => by cases h⟩

theorem pressCommon_fine {c : Chorded.Ctx} (hc : ChFits cfg c) (idx : Nat) : (_root_.Verif.Chorded.pressCommon c idx).Fine fun x =>
    match x with
    | .inl r => ResFits cfg r
    | .inr p => ∀ cs ∈ p.possible, cs.index < cfg.chorded.chords.length := by
  unfold Chorded.pressCommon
  have h1 : (Chorded.PKS.new c idx).Fine fun p => ∀ cs ∈ p.possible, cs.index < cfg.chorded.chords.length := by
    refine (pushCap_fine _ _ _).bind ?_
    intro is _
    exact (chordsFor_fine hc idx).bind fun css hcss => hcss
  refine h1.bind ?_
  intro p hp
  dsimp only
  by_cases hi : c.sufficientIdle = true
  · rw [if_pos hi]
    cases hr : p.checkResolution with
    | none => exact hp
    | some r => exact checkResolution_fits hp hr
  · rw [if_neg hi]
    trivial

theorem refFor_fine {R : Type} (hs : Settings cfg D) {c : Chorded.Ctx} (hc : ChFits cfg c) {idx : Nat} {k : Chorded.Key R}
    (hk : ∀ (n : Nat) ch, cfg.chorded.chords[n]? = some ch → ch.head? = some idx → n ∈ k.chords.map (·.1)) {r : Chorded.Resolution} (hr : ResFits cfg r) :
    (k.refFor c idx r).Fine fun _ => True := by
  cases r with
  | passthrough => trivial
  | chord id =>
    have hid : cfg.chorded.chords[id]? = some cfg.chorded.chords[id] := List.getElem?_eq_getElem hr
    unfold Chorded.Key.refFor
    dsimp only
    rw [hc.config]
    generalize hch : cfg.chorded.chords[id] = ch at hid
    rw [hid]
    cases ch with
    | nil => exact absurd (List.mem_of_getElem? hid) hs.chords
    | cons a ch =>
      dsimp only
      refine (Res.Fine.index (Q := (· = a)) (show (a :: ch)[0]? = some a from rfl) rfl).bind ?_
      rintro _ rfl
      split
      · rename_i a heq
        obtain ⟨p, hp, hpe⟩ := List.mem_map.1 (hk id _ hid (by rw [heq]; rfl))
        split
        · trivial
        · rename_i hnone
          have := List.find?_eq_none.1 hnone p hp
          simp [hpe] at this
      · trivial

theorem insertPressed_fine (pos idx : Nat) (xs : List (Option Nat)) : (Chorded.insertPressed pos idx xs).Fine fun _ => True := by
  unfold Chorded.insertPressed
  split
  · trivial
  · split
    · trivial
    · rfl

theorem clearChords_length (idx : Nat) : ∀ (chs : List _root_.Verif.Chorded.Chord) (bs : List Bool), (Chorded.clearChords idx chs bs).length = bs.length
  | [], bs => by cases bs <;> rfl
  | _ :: _, [] => rfl
  | _ :: chs, _ :: bs => by simp [Chorded.clearChords, clearChords_length idx chs bs]

theorem chorded_fine {c : Chorded.Ctx} (hc : ChFits cfg c) {ev : Event Chorded.Ev} (hev : EvOk keys (fun x => EvFits cfg (.chorded x)) ev) :
    (c.handleEvent ev).Fine (ChFits cfg) := by
  unfold Chorded.Ctx.handleEvent
  split
  · rename_i idx
    have h1 : (c.pressIndex idx).Fine (ChFits cfg) := by
      unfold Chorded.Ctx.pressIndex
      split
      · exact hc
      · exact (insertPressed_fine _ _ _).bind fun xs _ => ⟨hc.config, hc.flags, hc.latest⟩
    refine h1.bind ?_
    intro c1 hc1
    refine (span_fine hc1).bind ?_
    intro span _
    split
    · exact ⟨hc1.config, hc1.flags, hc1.latest⟩
    · split
      · rename_i id hid
        refine (Res.Fine.index (Q := fun _ => True) (List.getElem?_eq_getElem (i := id) (by rw [hc1.config]; exact hc1.latest id hid)) trivial).bind ?_
        intro ch _
        exact ⟨hc1.config, hc1.flags, hc1.latest⟩
      · exact ⟨hc1.config, hc1.flags, fun id h => by cases h⟩
  · rename_i idx
    have h1 : ChFits cfg (c.releaseIndex idx) := by
      unfold Chorded.Ctx.releaseIndex
      split
      · exact ⟨hc.config, hc.flags, hc.latest⟩
      · exact hc
    exact ⟨h1.config, (clearChords_length _ _ _).trans h1.flags, h1.latest⟩
  · rename_i i id
    have hid : id < cfg.chorded.chords.length := hev
    rw [if_pos (by rw [hc.flags]; exact hid)]
    refine ⟨hc.config, by simpa using hc.flags, ?_⟩
    intro id' h'
    cases h'
    exact hid
  · exact hc

/-! ## The contexts together -/

/-- One of the parts of `Ctx.handleEvent`. -/
theorem sub_fine {E C : Type} {conv : Ev → Option E} {inj : E → Ev} (hci : ∀ e x, conv e = some x → inj x = e) {h : C → Event E → Res (C × KeyEvents E)}
    {P : C → Prop} {c : C} (hc : P c) {ev : Event Ev} (hev : EvOk keys (EvFits cfg) ev)
    (hh : ∀ e, EvOk keys (fun x => EvFits cfg (inj x)) e → (h c e).Fine fun x => EsOk keys D (fun x => EvFits cfg (inj x)) x.2 ∧ P x.1)
    {pke : KeyEvents Ev} (hp : EsOk keys D (EvFits cfg) pke) :
    (sub conv inj h c pke ev).Fine fun x => EsOk keys D (EvFits cfg) x.2 ∧ P x.1 := by
  unfold sub
  split
  · rename_i e he
    have hev' : EvOk keys (fun x => EvFits cfg (inj x)) e := by
      cases ev with
      | input ie => cases he; exact hev
      | keymap ke => cases he; exact hev
      | key i x =>
        obtain ⟨y, hy, rfl⟩ := Option.map_eq_some_iff.1 he
        show EvFits cfg (inj y)
        rw [hci x y hy]
        exact hev
    refine (hh e hev').bind ?_
    rintro ⟨c', es⟩ ⟨h1, h2⟩
    refine (extend_fine _ _).bind ?_
    rintro _ rfl
    exact ⟨hp.append h1.mapEv, h2⟩
  · exact ⟨hp, hc⟩

theorem capsWord_events (c : CapsWord.Ctx) (ev : Event CapsWord.Ev) : EsOk keys D (fun x => EvFits cfg (.capsWord x)) (c.handleEvent ev).2 := by
  unfold CapsWord.Ctx.handleEvent
  split
  · split
    · split
      · exact .imm trivial
      · exact .nil
    · exact .nil
  · exact .imm trivial
  · exact .imm trivial
  · exact .nil

theorem ctx_fine (hs : Settings cfg D) {c : Ctx} (hc : CtxFits cfg c) {ev : Event Ev} (hev : EvOk keys (EvFits cfg) ev) :
    (c.handleEvent ev).Fine fun x => EsOk keys D (EvFits cfg) x.2 ∧ CtxFits cfg x.1 := by
  unfold Ctx.handleEvent
  refine (sub_fine (inj := .automation) (P := AutoFits cfg) (D := D) (fun e x h => by cases e <;> cases h; rfl) ⟨hc.automation, hc.queue.1, hc.queue.2⟩ hev
    (fun e he => automation_fine hs ⟨hc.automation, hc.queue.1, hc.queue.2⟩ he) .nil).bind ?_
  rintro ⟨a, p1⟩ ⟨h1, ha⟩
  refine (sub_fine (inj := .capsWord) (P := fun _ => True) (D := D) (fun e x h => by cases e <;> cases h; rfl) trivial hev
    (conv := Ev.toCapsWord?) (h := fun (c : CapsWord.Ctx) e => .ok (c.handleEvent e)) (fun e he => ⟨capsWord_events _ e, trivial⟩) h1).bind ?_
  rintro ⟨w, p2⟩ ⟨h2, _⟩
  refine (sub_fine (inj := .chorded) (P := ChFits cfg) (D := D) (fun e x h => by cases e <;> cases h; rfl) ⟨hc.chorded, hc.flags, hc.latest⟩ hev
    (fun e he => (chorded_fine ⟨hc.chorded, hc.flags, hc.latest⟩ he).map fun c' hc' => ⟨.nil, hc'⟩) h2).bind ?_
  rintro ⟨ch, p3⟩ ⟨h3, hch⟩
  refine (sub_fine (inj := .layered) (P := LayFits cfg) (D := D) (fun e x h => by cases e <;> cases h; rfl) ⟨hc.layers, hc.default⟩ hev
    (fun e he => (layered_fine ⟨hc.layers, hc.default⟩ he).map fun c' hc' => ⟨.nil, hc'⟩) h3).bind ?_
  rintro ⟨l, p4⟩ ⟨h4, hl⟩
  refine (sub_fine (inj := .sticky) (P := fun _ => True) (D := D) (fun e x h => by cases e <;> cases h; rfl) trivial hev
    (fun e he => (sticky_fine _ e).mono fun x hx => ⟨hx, trivial⟩) h4).bind ?_
  rintro ⟨st, p5⟩ ⟨h5, _⟩
  exact ⟨h5, ha.config, ⟨ha.queue, ha.runs⟩, hch.config, hch.flags, hch.latest, hl.layers, hl.default, hc.tapDance, hc.tapHold⟩

/-! ## The keys -/

/-- What a press gives: `Sound.press`. -/
abbrev PressFits (K : Keys) (cfg : Config) (D keys idx : Nat) (r : Ref) (x : PKR Ref PKS KS × KeyEvents Ev) : Prop :=
  EsOk keys D (EvFits cfg) x.2 ∧
    match x.1 with
    | .resolved ks => KsFits K cfg idx r ks
    | .newPressedKey (.key r') => Good K cfg idx r'
    | .newPressedKey .noOp => True
    | .pending p => PksFits K cfg idx r p

/-- The part of it which is not known from elsewhere (`npk_child`). -/
abbrev PressFits' (K : Keys) (cfg : Config) (D keys idx : Nat) (r : Ref) (x : PKR Ref PKS KS × KeyEvents Ev) : Prop :=
  EsOk keys D (EvFits cfg) x.2 ∧
    match x.1 with
    | .pending p => PksFits K cfg idx r p
    | _ => True

theorem press_fine' (hs : Settings cfg D) {idx : Nat} {c : Ctx} {r : Ref} (hr : Good K cfg idx r) (hc : CtxFits cfg c) :
    (newPressedKey K idx c r).Fine (PressFits' K cfg D keys idx r) := by
  have hf := hr.fits
  cases r with
  | automation i =>
    obtain ⟨k, hk, h1, h2, h3⟩ := hf
    have : (Automation.sysNewPressedKey K.automation idx i).Fine (EsOk keys D fun x => EvFits cfg (.automation x)) := by
      refine (Res.Fine.index (Q := (· = k)) hk rfl).bind ?_
      rintro _ rfl
      refine .imm ?_
      show EvFits cfg (.automation _)
      split
      · trivial
      · exact h1
    exact this.bind fun es hes => ⟨hes.mapEv, trivial⟩
  | callback i =>
    have : (CallbackKey.newPressedKey (E := Ev) K.callback i).Fine (EsOk keys D (EvFits cfg)) := by
      refine (Res.Fine.index (Q := fun _ => True) (List.getElem?_eq_getElem hf) trivial).bind ?_
      intro cb _
      exact .imm trivial
    exact this.bind fun es hes => ⟨hes, trivial⟩
  | capsWord => exact ⟨EsOk.mapEv (.imm trivial), trivial⟩
  | chorded x =>
    have hch : ChFits cfg c.chorded := ⟨hc.chorded, hc.flags, hc.latest⟩
    have : (Chorded.sysNewPressedKey K.chorded K.chordedAux idx c.chorded x).Fine fun y =>
        EsOk keys D (fun x => EvFits cfg (.chorded x)) y.2 ∧ ∀ p, y.1 = .pending p → ∀ cs ∈ p.possible, cs.index < cfg.chorded.chords.length := by
      have ht : EsOk keys D (fun x => EvFits cfg (.chorded x)) (Chorded.timeoutEvents c.chorded idx) := by
        refine .after trivial ?_
        rw [hc.chorded]
        exact hs.chord
      cases x with
      | chorded i =>
        obtain ⟨k, hk, hkc⟩ := hf
        refine (Res.Fine.index (Q := (· = k)) hk rfl).bind ?_
        rintro _ rfl
        refine (pressCommon_fine hch idx).bind ?_
        intro y hy
        cases y with
        | inl r => exact (refFor_fine hs hch hkc hy).bind fun n _ => ⟨.nil, fun p hp => by cases hp⟩
        | inr p => exact ⟨ht, fun p' hp' => by cases hp'; exact hy⟩
      | auxiliary i =>
        refine (Res.Fine.index (Q := fun _ => True) (List.getElem?_eq_getElem hf) trivial).bind ?_
        intro pt _
        refine (pressCommon_fine hch idx).bind ?_
        intro y hy
        cases y with
        | inl r => exact ⟨.nil, fun p hp => by cases hp⟩
        | inr p => exact ⟨ht, fun p' hp' => by cases hp'; exact hy⟩
    refine this.bind ?_
    rintro ⟨p, es⟩ ⟨h1, h2⟩
    refine ⟨h1.mapEv, ?_⟩
    cases p with
    | pending p => exact ⟨⟨x, rfl⟩, hr, h2 p rfl⟩
    | npk n => trivial
  | consumer => exact ⟨.nil, trivial⟩
  | custom => exact ⟨.nil, trivial⟩
  | keyboard => exact ⟨.nil, trivial⟩
  | layered x =>
    have : (Layered.sysNewPressedKey K.layerMods K.layered idx c.layered x).Fine fun y => EsOk keys D (fun x => EvFits cfg (.layered x)) y.2 := by
      cases x with
      | modifier i =>
        obtain ⟨m, hm, hl⟩ := hf
        refine (Res.Fine.index (Q := (· = m)) hm rfl).bind ?_
        rintro _ rfl
        refine .imm ?_
        rename_i m
        cases m <;> exact hl
      | layered i =>
        obtain ⟨k, hk, hl⟩ := hf
        refine (Res.Fine.index (Q := (· = k)) hk rfl).bind ?_
        rintro _ rfl
        exact (layeredKey_fine ⟨hc.layers, hc.default⟩ hl).bind fun _ _ => .nil
    refine this.bind ?_
    rintro ⟨p, es⟩ h1
    exact ⟨h1.mapEv, by cases p <;> trivial⟩
  | mouse => exact ⟨.nil, trivial⟩
  | sticky i =>
    have : (Sticky.sysNewPressedKey K.sticky i).Fine fun _ => True :=
      (Res.Fine.index (Q := fun _ => True) (List.getElem?_eq_getElem hf) trivial).bind fun _ _ => trivial
    exact this.bind fun b _ => ⟨.nil, trivial⟩
  | tapDance i =>
    obtain ⟨k, hk, _⟩ := hf
    refine ⟨EsOk.mapEv (.after trivial ?_), ⟨i, k, rfl, hk, .inl rfl⟩, hr⟩
    rw [hc.tapDance]
    exact hs.tapDance
  | tapHold i =>
    have ht : EsOk keys D (fun x => EvFits cfg (.tapHold x)) (TapHold.newPending c.tapHold idx).2 := by
      refine .after trivial ?_
      rw [hc.tapHold]
      exact hs.tapHold
    have : (TapHold.newPressedKey K.tapHold idx c.tapHold i).Fine fun y => EsOk keys D (fun x => EvFits cfg (.tapHold x)) y.2 := by
      unfold TapHold.newPressedKey
      split
      · split
        · exact ht
        · exact (Res.Fine.index (Q := fun _ => True) (List.getElem?_eq_getElem hf) trivial).bind fun k _ => .nil
      · exact ht
    refine this.bind ?_
    rintro ⟨p, es⟩ h1
    refine ⟨h1.mapEv, ?_⟩
    cases p with
    | pending p => exact ⟨⟨i, rfl⟩, hr⟩
    | key r => trivial

theorem press_fine (hs : Settings cfg D) {idx : Nat} {c : Ctx} {r : Ref} (hr : Good K cfg idx r) (hc : CtxFits cfg c) :
    (newPressedKey K idx c r).Fine (PressFits K cfg D keys idx r) := by
  refine (press_fine' (keys := keys) hs hr hc).and_eq.mono ?_
  rintro ⟨x, es⟩ ⟨⟨h1, h2⟩, h3⟩
  refine ⟨h1, ?_⟩
  cases x with
  | resolved ks => cases ks <;> first | trivial | exact hr
  | newPressedKey k =>
    cases k with
    | key r' => exact hr.child (npk_child h3)
    | noOp => trivial
  | pending p => exact h2

theorem pending_fine' (hs : Settings cfg D) {idx : Nat} {c : Ctx} {r : Ref} {p : PKS} (hp : PksFits K cfg idx r p) (hc : CtxFits cfg c)
    {ev : Event Ev} (hev : EvOk keys (EvFits cfg) ev) :
    (updatePending K p idx c r ev).Fine fun x => EsOk keys D (EvFits cfg) x.2.2 ∧ (x.2.1 = none → PksFits K cfg idx r x.1) := by
  cases p with
  | chorded p =>
    obtain ⟨⟨x, rfl⟩, hr, hq⟩ := hp
    have hf := hr.fits
    have hch : ChFits cfg c.chorded := ⟨hc.chorded, hc.flags, hc.latest⟩
    unfold updatePending
    dsimp only
    split
    · rename_i e he
      have hres : ∀ r, ResFits cfg r → EsOk keys D (fun x => EvFits cfg (.chorded x)) [SchEv.imm (.key idx (Chorded.Ev.chordResolved r))] := by
        intro r hr
        refine .imm ?_
        cases r <;> exact hr
      have : (Chorded.sysUpdatePending K.chorded K.chordedAux p idx c.chorded x e).Fine fun y =>
          EsOk keys D (fun x => EvFits cfg (.chorded x)) y.2.2 ∧ ∀ cs ∈ y.1.possible, cs.index < cfg.chorded.chords.length := by
        cases x with
        | chorded i =>
          obtain ⟨k, hk, hkc⟩ := hf
          refine (Res.Fine.index (Q := (· = k)) hk rfl).bind ?_
          rintro _ rfl
          refine (pksEvent_fine hq _ idx e).bind ?_
          rintro ⟨p', res⟩ ⟨h1, h2⟩
          cases res with
          | none => exact ⟨.nil, h1⟩
          | some r => exact (refFor_fine hs hch hkc (h2 r rfl)).bind fun n _ => ⟨hres r (h2 r rfl), h1⟩
        | auxiliary i =>
          refine (Res.Fine.index (Q := fun _ => True) (List.getElem?_eq_getElem hf) trivial).bind ?_
          intro pt _
          refine (pksEvent_fine hq _ idx e).bind ?_
          rintro ⟨p', res⟩ ⟨h1, h2⟩
          cases res with
          | none => exact ⟨.nil, h1⟩
          | some r => exact ⟨hres r (h2 r rfl), h1⟩
      refine this.bind ?_
      rintro ⟨p', npk, es⟩ ⟨h1, h2⟩
      exact ⟨h1.mapEv, fun _ => ⟨⟨x, rfl⟩, hr, h2⟩⟩
    · exact ⟨.nil, fun _ => ⟨⟨x, rfl⟩, hr, hq⟩⟩
  | tapDance p =>
    obtain ⟨⟨i, k, rfl, hk, hcount⟩, hr⟩ := hp
    obtain ⟨k', hk', hpos, hmax, hdef⟩ := hr.fits
    obtain rfl : k' = k := Option.some.inj (hk'.symm.trans hk)
    have hget : ∀ j, j < k'.definitionCount → ∃ d, k'.definitions[j]? = some (some d) := by
      intro j hj
      have := hdef j hj
      cases hx : k'.definitions[j]? with
      | none => simp [hx] at this
      | some o =>
        cases o with
        | none => simp [hx] at this
        | some d => exact ⟨d, rfl⟩
    unfold updatePending
    dsimp only
    split
    · rename_i e he
      have : (TapDance.updatePending K.tapDance p idx c.tapDance i e).Fine fun y =>
          EsOk keys D (fun x => EvFits cfg (.tapDance x)) y.2.2 ∧ (y.2.1 = none → y.1.pressCount = 0 ∨ y.1.pressCount + 1 < k'.definitionCount) := by
        unfold TapDance.updatePending
        refine (Res.Fine.index (Q := (· = k')) hk rfl).bind ?_
        rintro _ rfl
        rename_i k'
        have h1 : (p.handleEvent c.tapDance idx e).Fine fun y => EsOk keys D (fun x => EvFits cfg (.tapDance x)) y.2.2 ∧
            (∀ n, y.2.1 = some n → n < k'.definitionCount) := by
          unfold TapDance.PKS.handleEvent
          split
          · split
            · refine ⟨.nil, fun n hn => ?_⟩
              cases hn
              omega
            · exact ⟨.nil, fun n hn => by cases hn⟩
          · split
            · rw [if_pos (by omega)]
              refine ⟨.after trivial ?_, fun n hn => by cases hn⟩
              rw [hc.tapDance]
              exact hs.tapDance
            · exact ⟨.nil, fun n hn => by cases hn⟩
          · exact ⟨.nil, fun n hn => by cases hn⟩
        refine h1.bind ?_
        rintro ⟨p', res, es⟩ ⟨h2, h3⟩
        cases res with
        | some n =>
          obtain ⟨d, hd⟩ := hget n (h3 n rfl)
          refine (Res.Fine.index (Q := (· = some d)) hd rfl).bind ?_
          rintro _ rfl
          exact ⟨h2, fun h => by cases h⟩
        | none =>
          dsimp only
          rw [if_neg (by omega)]
          split
          · obtain ⟨d, hd⟩ := hget (k'.definitionCount - 1) (by omega)
            refine (Res.Fine.index (Q := (· = some d)) hd rfl).bind ?_
            rintro _ rfl
            exact ⟨h2, fun h => by cases h⟩
          · exact ⟨h2, fun _ => by dsimp only; omega⟩
      refine this.bind ?_
      rintro ⟨p', npk, es⟩ ⟨h1, h2⟩
      exact ⟨h1.mapEv, fun hn => ⟨⟨i, k', rfl, hk, h2 hn⟩, hr⟩⟩
    · exact ⟨.nil, fun _ => ⟨⟨i, k', rfl, hk, hcount⟩, hr⟩⟩
  | tapHold p =>
    obtain ⟨⟨i, rfl⟩, hr⟩ := hp
    have hf := hr.fits
    unfold updatePending
    dsimp only
    split
    · rename_i e he
      have : (TapHold.updatePending K.tapHold p idx c.tapHold i e).Fine fun y => y.2.2 = [] := by
        unfold TapHold.updatePending
        split
        split
        · exact (Res.Fine.index (Q := fun _ => True) (List.getElem?_eq_getElem hf) trivial).bind fun k _ => rfl
        · rfl
      refine this.bind ?_
      rintro ⟨p', npk, es⟩ h1
      cases h1
      exact ⟨EsOk.mapEv .nil, fun _ => ⟨⟨i, rfl⟩, hr⟩⟩
    · exact ⟨.nil, fun _ => ⟨⟨i, rfl⟩, hr⟩⟩

theorem PksFits.good {idx : Nat} {r : Ref} {p : PKS} (h : PksFits K cfg idx r p) : Good K cfg idx r := by
  cases p with
  | chorded p => exact h.2.1
  | tapDance p => exact h.2
  | tapHold p => exact h.2

theorem state_fine {idx : Nat} {c : Ctx} {r : Ref} {ks : KS} (hk : KsFits K cfg idx r ks) (ev : Event Ev) :
    (updateState K ks r c idx ev).Fine fun x => EsOk keys D (EvFits cfg) x.2 ∧ KsFits K cfg idx r x.1 := by
  unfold updateState
  split
  · rename_i i
    have hr : Good K cfg idx (.automation i) := hk
    obtain ⟨k, hk', h1, h2, h3⟩ := hr.fits
    split
    · rename_i e he
      have : (Automation.sysUpdateState K.automation i idx e).Fine (EsOk keys D fun x => EvFits cfg (.automation x)) := by
        unfold Automation.sysUpdateState
        split
        · split
          · refine (Res.Fine.index (Q := (· = k)) hk' rfl).bind ?_
            rintro _ rfl
            exact .imm h2
          · exact .nil
        · split
          · refine (Res.Fine.index (Q := (· = k)) hk' rfl).bind ?_
            rintro _ rfl
            exact .imm h3
          · exact .nil
        · exact .nil
      exact this.bind fun es hes => ⟨hes.mapEv, hr⟩
    · exact ⟨.nil, hr⟩
  · rename_i x b
    have hr : Good K cfg idx (.layered x) := hk
    have hf := hr.fits
    split
    · rename_i e he
      have : (Layered.sysUpdateState K.layerMods b x idx e).Fine fun y => EsOk keys D (fun x => EvFits cfg (.layered x)) y.2 := by
        cases x with
        | layered i => exact .nil
        | modifier i =>
          obtain ⟨m, hm, hl⟩ := hf
          refine (Res.Fine.index (Q := (· = m)) hm rfl).bind ?_
          rintro _ rfl
          rename_i m
          have hev : ∀ y, (Layered.handleKeyEvent b idx e m).2 = some y → EvFits cfg (.layered y) := by
            intro y hy
            unfold Layered.handleKeyEvent at hy
            split at hy
            · split at hy
              · split at hy
                · cases hy; exact hl
                · cases hy
              · cases hy
            · cases hy
            · split at hy
              · split at hy
                · cases hy; exact hl
                · cases hy
              · split at hy
                · cases hy; exact hl
                · cases hy
              · cases hy
            · cases hy
            · split at hy
              · split at hy
                · cases hy; exact hl
                · cases hy
              · cases hy
          cases hh : Layered.handleKeyEvent b idx e m with
          | mk b' o =>
            rw [hh] at hev
            cases o with
            | none => exact .nil
            | some y => exact .imm (hev y rfl)
      refine this.bind ?_
      rintro ⟨b', es⟩ h1
      exact ⟨h1.mapEv, hr⟩
    · exact ⟨.nil, hr⟩
  · rename_i i b
    have hr : Good K cfg idx (.sticky i) := hk
    split
    · rename_i e he
      have : (Sticky.sysUpdateState K.sticky b i idx e).Fine fun y => EsOk keys D (fun x => EvFits cfg (.sticky x)) y.2 := by
        refine (Res.Fine.index (Q := fun _ => True) (List.getElem?_eq_getElem hr.fits) trivial).bind ?_
        intro m _
        unfold Sticky.updateState
        split
        · split
          · exact .nil
          · split
            · exact .immCons trivial (.imm trivial)
            · exact .nil
          · exact .nil
        · exact .nil
      refine this.bind ?_
      rintro ⟨b', es⟩ h1
      exact ⟨h1.mapEv, hr⟩
    · exact ⟨.nil, hr⟩
  · exact ⟨.nil, hk⟩

theorem output_fine {idx : Nat} {r : Ref} {ks : KS} (hk : KsFits K cfg idx r ks) : (keyOutput K r ks).Fine fun _ => True := by
  unfold keyOutput
  split
  · trivial
  · trivial
  · rename_i x
    have hr : Good K cfg idx (.keyboard x) := hk
    have hf := hr.fits
    cases x with
    | keyCode => trivial
    | modifiers => trivial
    | keyCodeAndModifier i => exact (Res.Fine.index (Q := fun _ => True) (List.getElem?_eq_getElem hf) trivial).bind fun _ _ => trivial
  · rename_i x
    have hr : Good K cfg idx (.mouse x) := hk
    have hf := hr.fits
    cases x with
    | button b =>
      simp only [Mouse.keyOutput]
      rw [if_pos (show 1 ≤ b ∧ b ≤ 8 from hf)]
      trivial
    | _ => trivial
  · rename_i i b
    have hr : Good K cfg idx (.sticky i) := hk
    exact (Res.Fine.index (Q := fun _ => True) (List.getElem?_eq_getElem hr.fits) trivial).bind fun _ _ => trivial
  · trivial

theorem sound (hs : Settings cfg D) {refs : List Ref} (hg : ∀ i r, refs[i]? = some r → Good K cfg i r) (S : Search) :
    Sound ⟨system K, refs, S⟩ D (CtxFits cfg) (Good K cfg) (KsFits K cfg) (PksFits K cfg) (EvFits cfg) where
  refs := hg
  noOp := fun _ _ => trivial
  press := by
    intro i r c hr hc
    refine (press_fine (keys := refs.length) hs hr hc).mono ?_
    rintro ⟨x, es⟩ ⟨h1, h2⟩
    refine ⟨h1, ?_⟩
    cases x with
    | resolved ks => exact h2
    | newPressedKey k => cases k <;> exact h2
    | pending p => exact h2
  pending := by
    intro i r p c ev hp hc hev
    refine (pending_fine' (keys := refs.length) hs hp hc hev).and_eq.mono ?_
    rintro ⟨p', npk, es⟩ ⟨⟨h1, h2⟩, h3⟩
    refine ⟨h1, ?_⟩
    cases npk with
    | none => exact h2 rfl
    | some k =>
      cases k with
      | key r' => exact hp.good.child (pend_child h3)
      | noOp => trivial
  state := fun i r ks c ev hk _ _ => state_fine (c := c) hk ev
  ctx := fun c ev hc hev => ctx_fine hs hc hev
  setCtx := fun c t i hc => ⟨hc.automation, hc.queue, hc.chorded, hc.flags, hc.latest, hc.layers, hc.default, hc.tapDance, hc.tapHold⟩
  output := fun i r ks hk => output_fine hk

/-- A new keymap. -/
theorem inv_new (hs : Settings cfg D) (K : Keys) (refs : List Ref) (S : Search) :
    Inv ⟨system K, refs, S⟩ (CtxFits cfg) (KsFits K cfg) (PksFits K cfg) (EvFits cfg) 0 0 1 (KM.new (Ctx.fromConfig cfg)) where
  core := {
    ctx := ctxFits_new hs
    pressed := fun i r ks h => by cases h
    sched := ⟨(fun e h => by cases h), (fun t h => by cases h), Nat.le_refl _⟩
    inq := fun e h => by cases h
    idle := Nat.le_refl _
    ms := rfl }
  pend := fun p h => by cases h

end Comp

end Verif
