import Verif.Lemmas.VirtStep
import Verif.Spec.OneShotLayout

/-!
# Sticky layers on the keyboard and in the layer context
-/

namespace Verif.Layered

open OneShot (Light)

/-- The state of a layer. -/
def light : Light → Activity
  | .off => .inactive
  | .on => .regular
  | .once => .sticky

theorem light_active (x : Light) : (light x).isActive = decide (x ≠ .off) := by cases x <;> rfl

theorem activeLayersFrom_light (i : Nat) (ls : List Light) :
    activeLayersFrom i (ls.map light) = activeLayersFrom i ((ls.map fun x => decide (x ≠ .off)).map act) := by
  induction ls generalizing i with
  | nil => rfl
  | cons x ls ih => simp only [List.map_cons, activeLayersFrom, ih, light_active, act_active]

theorem stickyLayerFrom_light (i : Nat) (ls : List Light) :
    stickyLayerFrom i (ls.map light) = (ls.findIdx? fun x => x == .once).map (· + (i + 1)) := by
  induction ls generalizing i with
  | nil => rfl
  | cons x ls ih =>
    cases x with
    | once =>
      simp only [List.map_cons, light, stickyLayerFrom, List.findIdx?_cons]
      simp
    | off =>
      simp only [List.map_cons, light, stickyLayerFrom, ih, List.findIdx?_cons]
      cases ls.findIdx? (fun x => x == .once) with
      | none => rfl
      | some k => simp; omega
    | on =>
      simp only [List.map_cons, light, stickyLayerFrom, ih, List.findIdx?_cons]
      cases ls.findIdx? (fun x => x == .once) with
      | none => rfl
      | some k => simp; omega

theorem stickyLayer_light {c : Ctx} {s : OneShot.State} (h : c.layers = s.layers.map light) : c.stickyLayer = s.once := by
  unfold Ctx.stickyLayer OneShot.State.once
  rw [h, stickyLayerFrom_light]

theorem newPressedKey_light {R : Type} {k : LayeredKey R} {c : Ctx} {s : OneShot.State} (hl : c.layers = s.layers.map light)
    (hk : k.layered.length = s.layers.length) (hd : ∀ d, c.defaultLayer = some d → 0 < d ∧ d ≤ s.layers.length) :
    k.newPressedKey c = .ok (Board.lookup s.on c.defaultLayer k.base k.layered) := by
  have h := newPressedKey_lookup (k := k) (c := { c with layers := s.on.map act }) (on := s.on) rfl (by simpa [OneShot.State.on] using hk)
    (by simpa [OneShot.State.on] using hd)
  rw [← h]
  unfold LayeredKey.newPressedKey highestActiveKey activeLayers
  rw [hl, activeLayersFrom_light]
  rfl

theorem once_bounds {s : OneShot.State} {l : Nat} (h : s.once = some l) : 0 < l ∧ l ≤ s.layers.length := by
  unfold OneShot.State.once at h
  obtain ⟨k, hk, rfl⟩ := Option.map_eq_some_iff.1 h
  obtain ⟨hk, _⟩ := List.findIdx?_eq_some_iff_getElem.1 hk
  omega

/-- The layer part of the context is that of the keyboard. -/
structure LRel (c : Ctx) (s : OneShot.State) : Prop where
  layers : c.layers = s.layers.map light
  user : c.pressedIdx = s.user
  dflt : c.defaultLayer = s.dflt

theorem LRel.turn {c : Ctx} {s : OneShot.State} (h : LRel c s) {l : Nat} (h0 : 0 < l) (h1 : l ≤ s.layers.length) (x : Light) :
    setLayer c.layers l (light x) = .ok ((s.turn l x).layers.map light) := by
  rw [setLayer_ok c.layers (light x) h0 (by rw [h.layers]; simpa using h1), h.layers]
  simp only [OneShot.State.turn, List.map_set]

theorem LRel.use {c : Ctx} {s : OneShot.State} (h : LRel c s) (i : Nat) :
    ∃ c', c.handleEvent (.input (.press i)) = .ok c' ∧ LRel c' (s.use i) := by
  simp only [Ctx.handleEvent, OneShot.State.use, stickyLayer_light h.layers, h.user]
  cases ho : s.once with
  | none => exact ⟨c, rfl, h⟩
  | some l =>
    obtain ⟨h0, h1⟩ := once_bounds ho
    by_cases hu : s.user.isSome
    · simp only [hu, if_true]
      rw [show Activity.inactive = light .off from rfl, h.turn h0 h1]
      exact ⟨_, rfl, rfl, rfl, h.dflt⟩
    · simp only [hu, if_false]
      exact ⟨_, rfl, h.layers, rfl, h.dflt⟩

theorem LRel.used {c : Ctx} {s : OneShot.State} (h : LRel c s) (i : Nat) :
    ∃ c', c.handleEvent (.input (.release i)) = .ok c' ∧ LRel c' (s.used i) := by
  simp only [Ctx.handleEvent, OneShot.State.used, stickyLayer_light h.layers, h.user]
  cases ho : s.once with
  | none => exact ⟨c, rfl, h⟩
  | some l =>
    obtain ⟨h0, h1⟩ := once_bounds ho
    by_cases hu : s.user = some i
    · simp only [hu, if_true]
      rw [show Activity.inactive = light .off from rfl, h.turn h0 h1]
      exact ⟨_, rfl, rfl, rfl, h.dflt⟩
    · simp only [hu, if_false]
      exact ⟨_, rfl, h⟩

theorem LRel.activated {c : Ctx} {s : OneShot.State} (h : LRel c s) {l : Nat} (h0 : 0 < l) (h1 : l ≤ s.layers.length) :
    ∃ c', c.handleLayerEvent (.activated l) = .ok c' ∧ LRel c' (s.turn l .on) := by
  simp only [Ctx.handleLayerEvent]
  rw [show Activity.regular = light .on from rfl, h.turn h0 h1]
  exact ⟨_, rfl, rfl, h.user, h.dflt⟩

theorem setLayers_light (b : LayerBitset) (n i : Nat) (ls : List Light) (h : i + n ≤ ls.length) (h2 : i + n ≤ 31) :
    setLayers b (ls.map light) (List.range' (i + 1) n) =
      .ok ((ls.mapIdx fun j x => if i ≤ j ∧ j < i + n then (if b.getLsbD (j + 1) then Light.on else .off) else x).map light) := by
  induction n generalizing i ls with
  | zero =>
    have : (ls.mapIdx fun j x => if i ≤ j ∧ j < i + 0 then (if b.getLsbD (j + 1) then Light.on else .off) else x) = ls := by
      apply List.ext_getElem
      · simp
      · intro k h1 h2
        simp only [List.getElem_mapIdx]
        rw [if_neg (by omega)]
    simp only [List.range'_zero, setLayers, this]
  | succ n ih =>
    have hbit := bit_iff b (i + 1) (by omega)
    have hav : (if b &&& (1#32 <<< (i + 1)) ≠ 0 then Activity.regular else .inactive) = light (if b.getLsbD (i + 1) then .on else .off) := by
      by_cases hb : b.getLsbD (i + 1) = true
      · rw [if_pos (hbit.2 hb), hb]; rfl
      · rw [if_neg (fun h => hb (hbit.1 h))]
        rw [Bool.not_eq_true] at hb
        rw [hb]; rfl
    have hs := setLayer_ok (ls.map light) (light (if b.getLsbD (i + 1) then .on else .off)) (l := i + 1) (by omega) (by simp; omega)
    rw [List.range'_succ, setLayers, hav, hs]
    simp only [Res.ok_bind, Nat.add_sub_cancel]
    rw [← List.map_set, ih (i + 1) _ (by simp; omega) (by omega)]
    congr 2
    apply List.ext_getElem
    · simp
    · intro k h1 h2
      simp only [List.getElem_mapIdx, List.getElem_set]
      clear hs hav hbit ih
      by_cases hk : i = k
      · subst hk
        simp [show ¬ (i + 1 ≤ i) by omega, show i < i + (n + 1) by omega]
      · by_cases hk2 : i + 1 ≤ k ∧ k < i + 1 + n
        · simp [hk2, show i ≤ k by omega, show k < i + (n + 1) by omega]
        · have : ¬ (i ≤ k ∧ k < i + (n + 1)) := by omega
          simp [hk2, this, hk]

/-- What pressing a layer key does. -/
theorem LRel.press {c : Ctx} {s : OneShot.State} (h : LRel c s) {m : ModifierKey} {a : OneShot.Act}
    (hm : (∃ l, m = .hold l ∧ a = .cell (.hold l)) ∨ (∃ l, m = .toggle l ∧ a = .cell (.toggle l)) ∨
      (∃ b, m = .setActiveLayers b ∧ a = .cell (.setLayers b)) ∨ (∃ l, m = .default l ∧ a = .cell (.default l)) ∨
      (∃ l, m = .sticky l ∧ a = .oneShot l)) (hf : a.Fits s.layers.length) :
    ∃ c', c.handleLayerEvent m.newPressedKey.2 = .ok c' ∧ LRel c' (a.press s) := by
  rcases hm with ⟨l, rfl, rfl⟩ | ⟨l, rfl, rfl⟩ | ⟨b, rfl, rfl⟩ | ⟨l, rfl, rfl⟩ | ⟨l, rfl, rfl⟩
  · exact h.activated hf.1 hf.2
  · have h0 := hf.1
    have h1 := hf.2
    have hg : s.layers[l - 1]? = some (s.layers[l - 1]'(by omega)) := by rw [List.getElem?_eq_getElem]
    have hi : Res.index c.layers (l - 1) = .ok (light (s.layers[l - 1]'(by omega))) := by
      rw [Res.index_eq_ok, h.layers, List.getElem?_map, hg]; rfl
    have hx : (if (light (s.layers[l - 1]'(by omega))).isActive then Activity.inactive else .regular) =
        light (if s.layers.getD (l - 1) .off = .off then .on else .off) := by
      rw [List.getD_eq_getElem?_getD, hg, Option.getD_some]
      cases s.layers[l - 1]'(by omega) <;> rfl
    simp only [ModifierKey.newPressedKey, Ctx.handleLayerEvent]
    rw [if_neg (by omega), hi]
    simp only [Res.ok_bind, hx]
    rw [h.turn h0 h1]
    exact ⟨_, rfl, rfl, h.user, h.dflt⟩
  · refine ⟨{ c with layers := (s.layers.mapIdx fun j x => if 0 ≤ j ∧ j < 0 + min s.layers.length 31 then (if b.getLsbD (j + 1) then Light.on else .off) else x).map light }, ?_, ?_, h.user, h.dflt⟩
    · simp only [ModifierKey.newPressedKey, Ctx.handleLayerEvent, maxBitsetLayer]
      rw [h.layers, List.length_map, setLayers_light b (min s.layers.length 31) 0 s.layers (by omega) (by omega)]
      rfl
    · simp only [OneShot.Act.press]
      congr 1
      apply List.ext_getElem
      · simp
      · intro k h1 h2
        have : k < s.layers.length := by simpa using h1
        simp only [List.getElem_mapIdx]
        by_cases hk : k + 1 ≤ 31
        · rw [if_pos (by omega), if_pos hk]
        · rw [if_neg (by omega), if_neg hk]
  · exact ⟨_, rfl, h.layers, h.user, rfl⟩
  · simp only [ModifierKey.newPressedKey, Ctx.handleLayerEvent]
    rw [show Activity.sticky = light .once from rfl, h.turn hf.1 hf.2]
    exact ⟨_, rfl, rfl, rfl, h.dflt⟩

/-- What releasing a layer key does. -/
theorem LRel.release {c : Ctx} {s : OneShot.State} (h : LRel c s) {e : Ev} {a : OneShot.Act}
    (he : (∃ l, e = .deactivated l ∧ a = .cell (.hold l)) ∨ (∃ l, e = .setDefault l ∧ a = .cell (.default l)))
    (hf : a.Fits s.layers.length) : ∃ c', c.handleLayerEvent e = .ok c' ∧ LRel c' (a.release s) := by
  rcases he with ⟨l, rfl, rfl⟩ | ⟨l, rfl, rfl⟩
  · simp only [Ctx.handleLayerEvent]
    rw [show Activity.inactive = light .off from rfl, h.turn hf.1 hf.2]
    exact ⟨_, rfl, rfl, h.user, h.dflt⟩
  · exact ⟨_, rfl, h.layers, h.user, rfl⟩

end Verif.Layered

namespace Verif.Comp

open OneShot

/-- The held key a pressed input stands for. -/
inductive Stands (K : Keys) : PressedInput Ref KS → Nat × Act → Prop
  | cell {i : Nat} {r : Ref} {c : Board.Cell} (h : cellOf K r = some c) : Stands K (.key i r (ksOf r)) (i, .cell c)
  | oneShot {i j l : Nat} (h : K.layerMods[j]? = some (.sticky l)) :
    Stands K (.key i (.layered (.modifier j)) (.layerModifier .sticky)) (i, .oneShot l)
  | hold {i j l : Nat} (h : K.layerMods[j]? = some (.sticky l)) :
    Stands K (.key i (.layered (.modifier j)) (.layerModifier .regular)) (i, .cell (.hold l))

/-- The same for all of them, in the same order. -/
inductive Stand (K : Keys) : List (PressedInput Ref KS) → List (Nat × Act) → Prop
  | nil : Stand K [] []
  | cons {p : PressedInput Ref KS} {x : Nat × Act} {ps : List (PressedInput Ref KS)} {xs : List (Nat × Act)} (h : Stands K p x)
    (hs : Stand K ps xs) : Stand K (p :: ps) (x :: xs)

variable {K : Keys} {refs : List Ref} {S : Search}

theorem Stand.append {ps qs : List (PressedInput Ref KS)} {xs ys : List (Nat × Act)} (h : Stand K ps xs) (h' : Stand K qs ys) :
    Stand K (ps ++ qs) (xs ++ ys) := by
  induction h with
  | nil => exact h'
  | cons h _ ih => exact .cons h ih

theorem Stand.snoc {ps : List (PressedInput Ref KS)} {xs : List (Nat × Act)} (h : Stand K ps xs) {p : PressedInput Ref KS} {x : Nat × Act}
    (hx : Stands K p x) : Stand K (ps ++ [p]) (xs ++ [x]) := h.append (.cons hx .nil)

theorem Stand.length {ps : List (PressedInput Ref KS)} {xs : List (Nat × Act)} (h : Stand K ps xs) : ps.length = xs.length := by
  induction h with
  | nil => rfl
  | cons _ _ ih => simp [ih]

theorem Stands.key {p : PressedInput Ref KS} {x : Nat × Act} (h : Stands K p x) : ∃ r ks, p = .key x.1 r ks := by
  cases h <;> exact ⟨_, _, rfl⟩

theorem Stand.hasPressed {ps : List (PressedInput Ref KS)} {xs : List (Nat × Act)} (h : Stand K ps xs) (i : Nat) :
    Verif.hasPressed i ps = xs.any (fun x => x.1 == i) := by
  induction h with
  | nil => rfl
  | cons h _ ih =>
    obtain ⟨r, ks, rfl⟩ := h.key
    simp only [Verif.hasPressed, List.any_cons, ih]
    rfl

theorem Stand.removeKey {ps : List (PressedInput Ref KS)} {xs : List (Nat × Act)} (h : Stand K ps xs) (hnd : (xs.map Prod.fst).Nodup) (i : Nat) :
    Stand K (Verif.removeKey i ps) (xs.filter (fun x => x.1 != i)) := by
  induction h with
  | nil => exact .nil
  | @cons p x ps xs h hs ih =>
    obtain ⟨r, ks, rfl⟩ := h.key
    simp only [List.map_cons, List.nodup_cons] at hnd
    simp only [Verif.removeKey]
    by_cases e : x.1 = i
    · have hself : (x :: xs).filter (fun x => x.1 != i) = xs := by
        rw [List.filter_cons, if_neg (by simp [e]), List.filter_eq_self]
        intro y hy
        simp only [bne_iff_ne, ne_eq]
        intro hy'
        exact hnd.1 (List.mem_map.2 ⟨y, hy, by rw [hy', e]⟩)
      rw [if_pos e, hself]
      exact hs
    · rw [if_neg e, List.filter_cons, if_pos (by simpa using e)]
      exact .cons h (ih hnd.2)

theorem Stand.outputs {ps : List (PressedInput Ref KS)} {xs : List (Nat × Act)} (h : Stand K ps xs) :
    pressedOutputs (system K) ps = .ok (xs.filterMap fun p => p.2.output) := by
  induction h with
  | nil => rfl
  | @cons p x ps xs h hs ih =>
    cases h with
    | @cell i r c h =>
      simp only [pressedOutputs, ih]
      rw [show (system K).keyOutput r (ksOf r) = keyOutput K r (ksOf r) from rfl, keyOutput_cell h]
      cases c <;> rfl
    | oneShot h => simp only [pressedOutputs, ih]; rfl
    | hold h => simp only [pressedOutputs, ih]; rfl

/-- The events a held key emits. -/
def onceAnswer (ev : Event Ev) : Nat × Act → KeyEvents Ev
  | (i, .cell c) => answer i c ev
  | (i, .oneShot l) =>
    match ev with
    | .input (.press _) => [SchEv.imm (.key i (.layered (.activated l)))]
    | _ => []

/-- A held key after an event. -/
def onceNext (ev : Event Ev) (x : Nat × Act) : Nat × Act :=
  match ev with
  | .input (.press _) => (x.1, x.2.interrupt)
  | _ => x

theorem updateState_once {i : Nat} {r : Ref} {ks : KS} {x : Nat × Act} (h : Stands K (.key i r ks) x) (ctx : Ctx) (ev : Event Ev) :
    ∃ ks', updateState K ks r ctx i ev = .ok (ks', onceAnswer ev x) ∧ Stands K (.key i r ks') (onceNext ev x) := by
  cases h with
  | @cell _ _ c h =>
    refine ⟨_, updateState_cell h ctx i ev, ?_⟩
    have : onceNext ev (i, .cell c) = (i, .cell c) := by unfold onceNext; split <;> rfl
    rw [this]
    exact .cell h
  | @oneShot _ j l h =>
    have hi : Res.index K.layerMods j = .ok (.sticky l) := by simpa using h
    cases ev with
    | input e =>
      cases e with
      | press k =>
        refine ⟨.layerModifier .regular, ?_, .hold h⟩
        simp [updateState, Event.tryInto, Layered.sysUpdateState, hi, Layered.handleKeyEvent, onceAnswer, KeyEvents.mapEv, SchEv.map, SchEv.imm, Event.map]
      | release k =>
        refine ⟨.layerModifier .sticky, ?_, .oneShot h⟩
        simp [updateState, Event.tryInto, Layered.sysUpdateState, hi, Layered.handleKeyEvent, onceAnswer, KeyEvents.mapEv]
      | _ =>
        refine ⟨.layerModifier .sticky, ?_, .oneShot h⟩
        simp [updateState, Event.tryInto, Layered.sysUpdateState, hi, Layered.handleKeyEvent, onceAnswer, KeyEvents.mapEv]
    | keymap e =>
      refine ⟨.layerModifier .sticky, ?_, .oneShot h⟩
      simp [updateState, Event.tryInto, Layered.sysUpdateState, hi, Layered.handleKeyEvent, onceAnswer, KeyEvents.mapEv]
    | key k e =>
      refine ⟨.layerModifier .sticky, ?_, .oneShot h⟩
      cases e <;> simp [updateState, Event.tryInto, Ev.toLayered?, Layered.sysUpdateState, hi, Layered.handleKeyEvent, onceAnswer, KeyEvents.mapEv]
  | @hold _ j l h =>
    have hi : Res.index K.layerMods j = .ok (.sticky l) := by simpa using h
    have hn : onceNext ev (i, .cell (.hold l)) = (i, .cell (.hold l)) := by unfold onceNext; split <;> rfl
    refine ⟨.layerModifier .regular, ?_, by rw [hn]; exact .hold h⟩
    cases ev with
    | input e =>
      cases e with
      | release k =>
        by_cases e : i = k <;>
          simp [updateState, Event.tryInto, Layered.sysUpdateState, hi, Layered.handleKeyEvent, onceAnswer, answer, e, KeyEvents.mapEv, SchEv.map, SchEv.imm, Event.map]
      | _ => simp [updateState, Event.tryInto, Layered.sysUpdateState, hi, Layered.handleKeyEvent, onceAnswer, answer, KeyEvents.mapEv]
    | keymap e => simp [updateState, Event.tryInto, Layered.sysUpdateState, hi, Layered.handleKeyEvent, onceAnswer, answer, KeyEvents.mapEv]
    | key k e =>
      cases e <;> simp [updateState, Event.tryInto, Ev.toLayered?, Layered.sysUpdateState, hi, Layered.handleKeyEvent, onceAnswer, answer, KeyEvents.mapEv]

theorem Stand.notifyPressed {ps : List (PressedInput Ref KS)} {xs : List (Nat × Act)} (h : Stand K ps xs) (ctx : Ctx) (ev : Event Ev) :
    ∃ ps', Stand K ps' (xs.map (onceNext ev)) ∧ ∀ s : Sched Ev,
      Verif.notifyPressed ⟨system K, refs, S⟩ ctx ev ps s = (fun s' => (ps', s')) <$> s.scheduleAll S (xs.flatMap (onceAnswer ev)) := by
  induction h with
  | nil => exact ⟨[], .nil, fun _ => rfl⟩
  | @cons p x ps xs h hs ih =>
    obtain ⟨ps', h4, h3⟩ := ih
    obtain ⟨r, ks, rfl⟩ := h.key
    obtain ⟨ks', h1, h2⟩ := updateState_once h ctx ev
    refine ⟨.key x.1 r ks' :: ps', .cons h2 h4, ?_⟩
    intro s
    simp only [Verif.notifyPressed]
    rw [show (system K).updateState ks r ctx x.1 ev = updateState K ks r ctx x.1 ev from rfl, h1]
    simp only [Res.ok_bind, List.flatMap_cons, Sched.scheduleAll_append]
    cases s.scheduleAll S (onceAnswer ev x) with
    | ok s1 =>
      simp only [Res.ok_bind, h3]
      cases s1.scheduleAll S (xs.flatMap (onceAnswer ev)) <;> rfl
    | panic p => rfl
    | fuel => rfl

/-- The pressed keys and the context learn of an event. -/
theorem Stand.notifyAll {km : CKM} {xs : List (Nat × Act)} (h : Stand K km.pressed xs) {ev : Event Ev} {ctx : Ctx} {es : KeyEvents Ev}
    (hc : km.ctx.handleEvent ev = .ok (ctx, es)) {sch : Sched Ev} (hs : km.sched.scheduleAll S (xs.flatMap (onceAnswer ev) ++ es) = .ok sch) :
    ∃ ps', Verif.notifyAll ⟨system K, refs, S⟩ km ev = .ok { km with pressed := ps', ctx := ctx, sched := sch } ∧
      Stand K ps' (xs.map (onceNext ev)) := by
  obtain ⟨ps', h2, h1⟩ := h.notifyPressed (refs := refs) (S := S) km.ctx ev
  refine ⟨ps', ?_, h2⟩
  rw [Sched.scheduleAll_append] at hs
  simp only [Verif.notifyAll, h1]
  cases hs1 : km.sched.scheduleAll S (xs.flatMap (onceAnswer ev)) with
  | ok s1 =>
    rw [hs1] at hs
    simp only [Res.ok_bind] at hs
    simp only [Res.map_ok, Res.ok_bind]
    rw [show (system K).ctxEvent km.ctx ev = km.ctx.handleEvent ev from rfl, hc]
    simp only [Res.ok_bind, hs, Res.pure_eq]
  | panic p => rw [hs1] at hs; cases hs
  | fuel => rw [hs1] at hs; cases hs

end Verif.Comp
