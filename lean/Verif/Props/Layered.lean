import Verif.Composite
import Verif.Example
import Verif.StdSearch

/-!
# C27, C28 and C29: layers
-/

namespace Verif.Layered

variable {R : Type}

/-! ## Specification -/

/-- Layer `l` (numbered from 1) is active. -/
def Active (c : Ctx) (l : Nat) : Prop := 0 < l ∧ ∃ a, c.layers[l - 1]? = some a ∧ a ≠ .inactive

/-- What the layered key has on layer `l` (`none`: transparent). -/
def onLayer (k : LayeredKey R) (l : Nat) : Option R := (k.layered[l - 1]?).join

/-- The key a layered key stands for: that of the highest active layer which has one; without such a
layer, that of the default layer; without that, the base key. -/
def Resolves (k : LayeredKey R) (c : Ctx) (r : R) : Prop :=
  (∃ l, Active c l ∧ onLayer k l = some r ∧ ∀ l', Active c l' → l < l' → onLayer k l' = none) ∨
  ((∀ l, Active c l → onLayer k l = none) ∧
    ((∃ d, c.defaultLayer = some d ∧ onLayer k d = some r) ∨
     ((∀ d, c.defaultLayer = some d → onLayer k d = none) ∧ r = k.base)))

/-! ## Lemmas -/

instance (c : Ctx) (l : Nat) : Decidable (Active c l) :=
  if h : 0 < l then
    match h' : c.layers[l - 1]? with
    | some a => if ha : a = .inactive then isFalse (fun ⟨_, b, hb, hn⟩ => by simp_all) else isTrue ⟨h, a, h', ha⟩
    | none => isFalse (fun ⟨_, b, hb, _⟩ => by simp_all)
  else isFalse (fun h' => h h'.1)

theorem isActive_iff {a : Activity} : a.isActive = true ↔ a ≠ .inactive := by cases a <;> simp [Activity.isActive]

theorem mem_activeLayersFrom {i l : Nat} {ls : List Activity} :
    l ∈ activeLayersFrom i ls ↔ ∃ j a, l = i + 1 + j ∧ ls[j]? = some a ∧ a ≠ .inactive := by
  induction ls generalizing i with
  | nil => simp [activeLayersFrom]
  | cons a as ih =>
    simp only [activeLayersFrom, List.mem_append, ih]
    constructor
    · rintro (⟨j, b, rfl, h1, h2⟩ | h)
      · exact ⟨j + 1, b, by omega, by simpa using h1, h2⟩
      · split at h
        · rename_i ha
          simp only [List.mem_singleton] at h
          exact ⟨0, a, by omega, by simp, isActive_iff.1 ha⟩
        · simp at h
    · rintro ⟨j, b, rfl, h1, h2⟩
      cases j with
      | zero =>
        right
        simp only [List.getElem?_cons_zero, Option.some.injEq] at h1
        subst h1
        simp [isActive_iff.2 h2]
      | succ j => left; exact ⟨j, b, by omega, by simpa using h1, h2⟩

theorem mem_activeLayers {c : Ctx} {l : Nat} : l ∈ activeLayers c.layers ↔ Active c l := by
  unfold activeLayers Active
  rw [mem_activeLayersFrom]
  constructor
  · rintro ⟨j, a, rfl, h1, h2⟩
    exact ⟨by omega, a, by simpa using h1, h2⟩
  · rintro ⟨h0, a, h1, h2⟩
    exact ⟨l - 1, a, by omega, h1, h2⟩

theorem activeLayersFrom_sorted (i : Nat) (ls : List Activity) : (activeLayersFrom i ls).Pairwise (· > ·) := by
  induction ls generalizing i with
  | nil => exact .nil
  | cons a as ih =>
    rw [activeLayersFrom, List.pairwise_append]
    refine ⟨ih _, by split <;> simp, ?_⟩
    intro x hx y hy
    obtain ⟨j, b, rfl, _⟩ := mem_activeLayersFrom.1 hx
    split at hy
    · simp only [List.mem_singleton] at hy; omega
    · simp at hy

theorem firstActive_spec {layered : List (Option R)} {ls : List Nat} (hs : ls.Pairwise (· > ·))
    (hr : ∀ l ∈ ls, 0 < l ∧ l ≤ layered.length) :
    (∃ l ∈ ls, ∃ r, (layered[l - 1]?).join = some r ∧ firstActive layered ls = .ok (some r) ∧
      ∀ l' ∈ ls, l < l' → (layered[l' - 1]?).join = none) ∨
    ((∀ l ∈ ls, (layered[l - 1]?).join = none) ∧ firstActive layered ls = .ok none) := by
  induction ls with
  | nil => right; simp [firstActive]
  | cons l ls ih =>
    obtain ⟨h0, h1⟩ := hr l List.mem_cons_self
    have hget : ∃ o, layered[l - 1]? = some o := ⟨layered[l - 1], by rw [List.getElem?_eq_getElem]⟩
    obtain ⟨o, ho⟩ := hget
    rw [List.pairwise_cons] at hs
    cases o with
    | some r =>
      left
      refine ⟨l, List.mem_cons_self, r, by simp [ho], by simp [firstActive, Res.index, ho], ?_⟩
      intro l' hl' hlt
      rcases List.mem_cons.1 hl' with rfl | hl'
      · omega
      · have := hs.1 l' hl'; omega
    | none =>
      have hf : firstActive layered (l :: ls) = firstActive layered ls := by simp [firstActive, Res.index, ho]
      rcases ih hs.2 (fun x hx => hr x (List.mem_cons_of_mem _ hx)) with ⟨x, hx, r, h2, h3, h4⟩ | ⟨h2, h3⟩
      · left
        refine ⟨x, List.mem_cons_of_mem _ hx, r, h2, by rw [hf, h3], ?_⟩
        intro l' hl' hlt
        rcases List.mem_cons.1 hl' with rfl | hl'
        · simp [ho]
        · exact h4 l' hl' hlt
      · right
        refine ⟨?_, by rw [hf, h3]⟩
        intro x hx
        rcases List.mem_cons.1 hx with rfl | hx
        · simp [ho]
        · exact h2 x hx

/-! ## C27 -/

/-- C27: pressing a layered key never panics and yields the key the specification names, for every
combination of active layers, default layer and definitions. -/
theorem C27_lookup (k : LayeredKey R) (c : Ctx) (hlen : k.layered.length = c.layers.length)
    (hdef : ∀ d, c.defaultLayer = some d → 0 < d ∧ d ≤ c.layers.length) (r : R) :
    k.newPressedKey c = .ok r ↔ Resolves k c r := by
  have hr : ∀ l ∈ activeLayers c.layers, 0 < l ∧ l ≤ k.layered.length := by
    intro l hl
    obtain ⟨h0, a, h1, _⟩ := mem_activeLayers.1 hl
    have := (List.getElem?_eq_some_iff.1 h1).1
    omega
  have hs := activeLayersFrom_sorted 0 c.layers
  unfold LayeredKey.newPressedKey highestActiveKey
  rcases firstActive_spec hs hr with ⟨l, hl, r', h1, h2, h3⟩ | ⟨h1, h2⟩
  · unfold activeLayers
    rw [h2]
    simp only [Res.ok_bind, Res.pure_eq, Option.getD_some, Res.ok.injEq]
    constructor
    · rintro rfl
      exact Or.inl ⟨l, mem_activeLayers.1 hl, h1, fun l' hl' => h3 l' (mem_activeLayers.2 hl')⟩
    · rintro (⟨l2, ha, hk, hlast⟩ | ⟨hno, _⟩)
      · rcases Nat.lt_trichotomy l l2 with h | h | h
        · have := h3 l2 (mem_activeLayers.2 ha) h
          unfold onLayer at hk; rw [hk] at this; simp at this
        · subst h; unfold onLayer at hk; rw [h1] at hk; simpa using hk
        · have := hlast l (mem_activeLayers.1 hl) h
          unfold onLayer at this; rw [h1] at this; simp at this
      · have := hno l (mem_activeLayers.1 hl)
        unfold onLayer at this; rw [h1] at this; simp at this
  · unfold activeLayers
    rw [h2]
    simp only [Res.ok_bind]
    have hno : ∀ l, Active c l → onLayer k l = none := fun l hl => h1 l (mem_activeLayers.2 hl)
    have first : ¬ ∃ l, Active c l ∧ onLayer k l = some r ∧ ∀ l', Active c l' → l < l' → onLayer k l' = none := by
      rintro ⟨l, ha, hk, _⟩; rw [hno l ha] at hk; simp at hk
    cases hd : c.defaultLayer with
    | none =>
      simp only [Res.ok_bind, Res.pure_eq, Option.getD_none, Res.ok.injEq]
      constructor
      · rintro rfl; exact Or.inr ⟨hno, Or.inr ⟨by simp [hd], rfl⟩⟩
      · rintro (h | ⟨_, ⟨d, h, _⟩ | ⟨_, rfl⟩⟩)
        · exact absurd h first
        · rw [hd] at h; simp at h
        · rfl
    | some d =>
      obtain ⟨hd0, hd1⟩ := hdef d hd
      obtain ⟨o, ho⟩ : ∃ o, k.layered[d - 1]? = some o := ⟨k.layered[d - 1], by rw [List.getElem?_eq_getElem]⟩
      have hidx : Res.index k.layered (d - 1) = .ok o := by simp [ho]
      have hon : onLayer k d = o := by simp [onLayer, ho]
      simp only [hidx, Res.ok_bind, Res.pure_eq, Res.ok.injEq]
      constructor
      · rintro rfl
        refine Or.inr ⟨hno, ?_⟩
        cases o with
        | some x => exact Or.inl ⟨d, hd, by rw [hon]; rfl⟩
        | none => exact Or.inr ⟨fun d' hd' => by rw [hd] at hd'; cases hd'; exact hon, rfl⟩
      · rintro (h | ⟨_, ⟨d', h, h'⟩ | ⟨h, rfl⟩⟩)
        · exact absurd h first
        · rw [hd] at h; cases h; rw [hon] at h'; subst h'; rfl
        · have := h d hd; rw [hon] at this; subst this; rfl

/-- C27: the lookup always succeeds. -/
theorem C27_total (k : LayeredKey R) (c : Ctx) (hlen : k.layered.length = c.layers.length)
    (hdef : ∀ d, c.defaultLayer = some d → 0 < d ∧ d ≤ c.layers.length) : ∃ r, k.newPressedKey c = .ok r := by
  have : ∃ r, Resolves k c r := by
    rcases firstActive_spec (layered := k.layered) (activeLayersFrom_sorted 0 c.layers) (by
      intro l hl
      obtain ⟨h0, a, h1, _⟩ := (mem_activeLayers (c := c)).1 hl
      have := (List.getElem?_eq_some_iff.1 h1).1
      omega) with ⟨l, hl, r, h1, _, h3⟩ | ⟨h1, _⟩
    · exact ⟨r, Or.inl ⟨l, mem_activeLayers.1 hl, h1, fun l' hl' => h3 l' (mem_activeLayers.2 hl')⟩⟩
    · have hno : ∀ l, Active c l → onLayer k l = none := fun l hl => h1 l (mem_activeLayers.2 hl)
      cases hd : c.defaultLayer with
      | none => exact ⟨k.base, Or.inr ⟨hno, Or.inr ⟨by simp [hd], rfl⟩⟩⟩
      | some d =>
        cases ho : onLayer k d with
        | some r => exact ⟨r, Or.inr ⟨hno, Or.inl ⟨d, hd, ho⟩⟩⟩
        | none => exact ⟨k.base, Or.inr ⟨hno, Or.inr ⟨fun d' hd' => by rw [hd] at hd'; cases hd'; exact ho, rfl⟩⟩⟩
  obtain ⟨r, hr⟩ := this
  exact ⟨r, (C27_lookup k c hlen hdef r).2 hr⟩

/-! ## C28 -/

theorem setLayer_active {c : Ctx} {l : Nat} {a : Activity} {ls : List Activity} (h : setLayer c.layers l a = .ok ls)
    (d : Option Nat) (p : Option Nat) (l' : Nat) :
    Active ⟨d, ls, p⟩ l' ↔ (l' = l ∧ a ≠ .inactive) ∨ (l' ≠ l ∧ Active c l') := by
  unfold setLayer at h
  split at h
  · split at h
    · simp at h
    · rename_i h1 h2
      simp only [Res.ok.injEq] at h
      subst h
      unfold Active
      simp only [List.getElem?_set]
      constructor
      · rintro ⟨h0, b, hb, hb'⟩
        split at hb
        · rename_i he
          split at hb
          · simp only [Option.some.injEq] at hb
            subst hb
            exact Or.inl ⟨by omega, hb'⟩
          · simp at hb
        · rename_i he
          exact Or.inr ⟨by rintro rfl; exact he rfl, h0, b, hb, hb'⟩
      · rintro (⟨rfl, ha⟩ | ⟨hne, h0, b, hb, hb'⟩)
        · exact ⟨by omega, a, by simp; omega, ha⟩
        · refine ⟨h0, b, ?_, hb'⟩
          rw [if_neg (by omega)]
          exact hb
  · simp at h

theorem setLayer_ok (ls : List Activity) {l : Nat} (a : Activity) (h0 : 0 < l) (h1 : l ≤ ls.length) :
    setLayer ls l a = .ok (ls.set (l - 1) a) := by
  unfold setLayer
  rw [if_pos h1, if_neg (by omega)]

/-- The layers named by a key exist (layers are numbered from 1). -/
def ModifierKey.InRange (count : Nat) : ModifierKey → Prop
  | .hold l | .toggle l | .sticky l => 0 < l ∧ l ≤ count
  | _ => True

/-- Whether layer `l` is active after pressing the key. -/
def ModifierKey.After (c : Ctx) (l : Nat) : ModifierKey → Prop
  | .hold h | .sticky h => l = h ∨ Active c l
  | .toggle h => (l = h ∧ ¬ Active c l) ∨ (l ≠ h ∧ Active c l)
  | .setActiveLayers s => (l ≤ 31 ∧ 0 < l ∧ l ≤ c.layers.length ∧ s.getLsbD l = true) ∨ (31 < l ∧ Active c l)
  | .default _ => Active c l

/-- The default layer after pressing the key. -/
def ModifierKey.defaultAfter (c : Ctx) : ModifierKey → Option Nat
  | .default l => if l = 0 then none else some l
  | _ => c.defaultLayer

/-- C28: what pressing a layer modifier key does to the layers (its press event, handled by the context):
a hold key adds its layer, a toggle key flips its layer, a set key makes exactly its layers active (of
the layers 1 to 31), a default key changes none; the default layer changes only by a default key. -/
theorem C28_press (m : ModifierKey) (c : Ctx) (hm : m.InRange c.layers.length) :
    ∃ c', c.handleLayerEvent m.newPressedKey.2 = .ok c' ∧ c'.layers.length = c.layers.length ∧
      (∀ l, Active c' l ↔ m.After c l) ∧ c'.defaultLayer = m.defaultAfter c := by
  cases m with
  | hold h =>
    have hs := setLayer_ok c.layers .regular hm.1 hm.2
    refine ⟨{ c with layers := c.layers.set (h - 1) .regular },
      by simp only [ModifierKey.newPressedKey, Ctx.handleLayerEvent, hs]; rfl, by simp, ?_, rfl⟩
    intro l
    rw [setLayer_active hs]
    by_cases e : l = h <;> simp [e, ModifierKey.After]
  | sticky h =>
    have hs := setLayer_ok c.layers .sticky hm.1 hm.2
    refine ⟨{ c with layers := c.layers.set (h - 1) .sticky, pressedIdx := none },
      by simp only [ModifierKey.newPressedKey, Ctx.handleLayerEvent, hs]; rfl, by simp, ?_, rfl⟩
    intro l
    rw [setLayer_active hs]
    by_cases e : l = h <;> simp [e, ModifierKey.After]
  | toggle h =>
    obtain ⟨h0, h1⟩ := hm
    obtain ⟨a, ha⟩ : ∃ a, c.layers[h - 1]? = some a := ⟨c.layers[h - 1]'(by omega), by rw [List.getElem?_eq_getElem]⟩
    have hi : Res.index c.layers (h - 1) = .ok a := by simp [ha]
    have hs := setLayer_ok c.layers (if a.isActive then .inactive else .regular) h0 h1
    refine ⟨{ c with layers := c.layers.set (h - 1) (if a.isActive then .inactive else .regular) }, ?_, ?_, ?_, rfl⟩
    · simp only [ModifierKey.newPressedKey, Ctx.handleLayerEvent]
      rw [if_neg (by omega), hi]
      simp only [Res.ok_bind, hs, Res.pure_eq]
    · simp
    · intro l
      rw [setLayer_active hs]
      have hact : Active c h ↔ a ≠ .inactive := by
        constructor
        · rintro ⟨_, b, hb, hb'⟩; rw [ha] at hb; cases hb; exact hb'
        · intro hne; exact ⟨h0, a, ha, hne⟩
      by_cases e : l = h
      · subst e
        simp only [true_and, ne_eq, not_true, false_and, or_false, hact, ModifierKey.After]
        cases a <;> simp [Activity.isActive]
      · simp [e, ModifierKey.After]
  | setActiveLayers s =>
    have key : ∀ (n : Nat), n ≤ c.layers.length → ∀ (i : Nat), i + n = min c.layers.length maxBitsetLayer → ∀ c2 : Ctx,
        c2.layers.length = c.layers.length →
        ∃ ls, setLayers s c2.layers (List.range' (i + 1) n) = .ok ls ∧ ls.length = c.layers.length ∧
          ∀ d p l, Active ⟨d, ls, p⟩ l ↔ if i < l ∧ l ≤ i + n then s.getLsbD l = true else Active c2 l := by
      intro n
      induction n with
      | zero =>
        intro _ i _ c2 hc2
        refine ⟨c2.layers, rfl, hc2, ?_⟩
        intro d p l
        rw [if_neg (by omega)]
        rfl
      | succ n ih =>
        intro hn i hi c2 hc2
        obtain ⟨av, hav⟩ : ∃ av : Activity, av = if s &&& (1#32 <<< (i + 1)) ≠ 0 then .regular else .inactive := ⟨_, rfl⟩
        have hs : setLayer c2.layers (i + 1) av = .ok (c2.layers.set i av) :=
          setLayer_ok c2.layers av (l := i + 1) (by omega) (by omega)
        obtain ⟨ls, h1, h2, h3⟩ := ih (by omega) (i + 1) (by omega) { c2 with layers := c2.layers.set i av } (by simpa using hc2)
        refine ⟨ls, ?_, h2, ?_⟩
        · rw [List.range'_succ, setLayers, ← hav, hs]
          exact h1
        · intro d p l
          rw [h3 d p l]
          by_cases e : l = i + 1
          · subst e
            rw [if_neg (by omega), if_pos (by omega), setLayer_active hs]
            have hlt : i + 1 < 32 := by unfold maxBitsetLayer at hi; omega
            have hbit : (s &&& (1#32 <<< (i + 1)) ≠ 0) ↔ s.getLsbD (i + 1) = true := by
              constructor
              · intro hne
                apply Classical.byContradiction
                intro hb
                apply hne
                apply BitVec.eq_of_getLsbD_eq
                intro j hj
                simp only [BitVec.getLsbD_and, BitVec.getLsbD_shiftLeft, BitVec.getLsbD_one, BitVec.ofNat_eq_ofNat, BitVec.getLsbD_zero]
                by_cases hj2 : j = i + 1
                · subst hj2; simp [hb]
                · have : ¬ (j < i + 1) → ¬ (j - (i + 1) = 0) := by omega
                  by_cases hj3 : j < i + 1
                  · simp [hj3]
                  · simp [this hj3]
              · intro hb h0
                have := congrArg (fun v => v.getLsbD (i + 1)) h0
                simp only [BitVec.getLsbD_and, BitVec.getLsbD_shiftLeft, BitVec.getLsbD_one, BitVec.ofNat_eq_ofNat, BitVec.getLsbD_zero] at this
                rw [hb] at this
                simp [hlt] at this
            by_cases hb : s &&& (1#32 <<< (i + 1)) ≠ 0
            · rw [if_pos hb] at hav; simp [hav, hbit.1 hb]
            · rw [if_neg hb] at hav; simp only [hav]; simpa using fun h => hb (hbit.2 h)
          · by_cases e2 : i + 1 < l ∧ l ≤ i + 1 + n
            · rw [if_pos e2, if_pos (by omega)]
            · rw [if_neg e2, if_neg (by omega), setLayer_active hs]
              simp [e]
    obtain ⟨ls, h1, h2, h3⟩ := key (min c.layers.length maxBitsetLayer) (by omega) 0 (by omega) c rfl
    refine ⟨{ c with layers := ls }, ?_, h2, ?_, rfl⟩
    · simp only [ModifierKey.newPressedKey, Ctx.handleLayerEvent]
      rw [show 1 = 0 + 1 from rfl, h1]
      rfl
    · intro l
      rw [h3]
      unfold maxBitsetLayer
      have out : ¬ l ≤ c.layers.length → ¬ Active c l := by
        rintro h ⟨_, a, ha, _⟩
        have := (List.getElem?_eq_some_iff.1 ha).1
        omega
      simp only [ModifierKey.After]
      by_cases e : l ≤ 31
      · simp only [e, true_and, show ¬ 31 < l by omega, false_and, or_false]
        by_cases e0 : 0 < l ∧ l ≤ c.layers.length
        · rw [if_pos (by omega)]; simp [e0]
        · rw [if_neg (by omega)]
          constructor
          · intro h
            exact absurd ⟨h.1, Classical.byContradiction fun hn => out hn h⟩ e0
          · rintro ⟨a, b, _⟩; exact absurd ⟨a, b⟩ e0
      · rw [if_neg (by omega)]
        simp [e, show 31 < l by omega]
  | default h =>
    exact ⟨_, rfl, rfl, fun l => Iff.rfl, rfl⟩

/-- C28: a hold key releases its layer, and no other, exactly at its own release. -/
theorem C28_hold_release (c : Ctx) (l : Nat) (hl : 0 < l ∧ l ≤ c.layers.length) (b : Behavior) (idx : Nat) :
    (∀ ev, (handleKeyEvent b idx ev (.hold l)).2 = if ev = .input (.release idx) then some (.deactivated l) else none) ∧
    ∃ c', c.handleLayerEvent (.deactivated l) = .ok c' ∧ c'.defaultLayer = c.defaultLayer ∧
      ∀ l', Active c' l' ↔ l' ≠ l ∧ Active c l' := by
  constructor
  · intro ev
    rcases ev with (k | k | k | k) | ⟨k, e⟩ | k <;> simp [handleKeyEvent, eq_comm]
  · have hs := setLayer_ok c.layers .inactive hl.1 hl.2
    refine ⟨{ c with layers := c.layers.set (l - 1) .inactive }, by simp only [Ctx.handleLayerEvent, hs]; rfl, rfl, ?_⟩
    intro l'
    rw [setLayer_active hs]
    simp

/-- C28: toggle and set keys do nothing after their press. -/
theorem C28_others_release (b : Behavior) (idx l : Nat) (s : LayerBitset) (ev : Event Ev) :
    (handleKeyEvent b idx ev (.toggle l)).2 = none ∧ (handleKeyEvent b idx ev (.setActiveLayers s)).2 = none := ⟨rfl, rfl⟩

/-- C28: pressing a toggle key twice makes the same layers active as before. -/
theorem C28_toggle_twice (c : Ctx) (l : Nat) (hl : 0 < l ∧ l ≤ c.layers.length) :
    ∃ c1 c2, c.handleLayerEvent (.toggled l) = .ok c1 ∧ c1.handleLayerEvent (.toggled l) = .ok c2 ∧
      ∀ l', Active c2 l' ↔ Active c l' := by
  obtain ⟨c1, h1, hlen, ha, _⟩ := C28_press (.toggle l) c hl
  obtain ⟨c2, h2, _, hb, _⟩ := C28_press (.toggle l) c1 (by rw [hlen]; exact hl)
  refine ⟨c1, c2, h1, h2, ?_⟩
  intro l'
  rw [hb l']
  simp only [ModifierKey.After, ha l']
  by_cases e : l' = l <;> simp [e]

/-- C28: the bitset built for a set key contains exactly the named layers, and naming a layer above 30
panics. -/
theorem C28_set_active_layers (layers : List Nat) :
    ((∀ l ∈ layers, l < 31) → ∃ s, ModifierKey.setActive layers = .ok (.setActiveLayers s) ∧ ∀ l, s.getLsbD l = true ↔ l ∈ layers) ∧
    ((∃ l ∈ layers, 31 ≤ l) → ModifierKey.setActive layers = .panic .explicit) := by
  have key : ∀ (ls : List Nat) (acc : LayerBitset),
      ((∀ l ∈ ls, l < 31) → ∃ s, bitsetOf acc ls = .ok s ∧ ∀ l, s.getLsbD l = true ↔ (acc.getLsbD l = true ∨ l ∈ ls)) ∧
      ((∃ l ∈ ls, 31 ≤ l) → bitsetOf acc ls = .panic .explicit) := by
    intro ls
    induction ls with
    | nil => intro acc; exact ⟨fun _ => ⟨acc, rfl, by simp⟩, by simp⟩
    | cons x xs ih =>
      intro acc
      constructor
      · intro h
        have hx := h x List.mem_cons_self
        obtain ⟨s, h1, h2⟩ := (ih (acc ||| (1#32 <<< x))).1 (fun l hl => h l (List.mem_cons_of_mem _ hl))
        refine ⟨s, by simp only [bitsetOf, maxBitsetLayer, hx, if_true, h1], ?_⟩
        intro l
        rw [h2 l]
        simp only [BitVec.getLsbD_or, BitVec.getLsbD_shiftLeft, BitVec.getLsbD_one, Bool.or_eq_true, List.mem_cons]
        by_cases e : l = x
        · subst e
          simp; omega
        · have : l < x ∨ ¬ l - x = 0 := by omega
          rcases this with h | h <;> simp [e, h]
      · rintro ⟨l, hl, h31⟩
        unfold bitsetOf
        by_cases hx : x < maxBitsetLayer
        · rw [if_pos hx]
          refine (ih _).2 ⟨l, ?_, h31⟩
          rcases List.mem_cons.1 hl with rfl | hl
          · unfold maxBitsetLayer at hx; omega
          · exact hl
        · rw [if_neg hx]
  constructor
  · intro h
    obtain ⟨s, h1, h2⟩ := (key layers 0).1 h
    exact ⟨s, by simp only [ModifierKey.setActive, h1]; rfl, by simpa using h2⟩
  · intro h
    simp only [ModifierKey.setActive, (key layers 0).2 h]
    rfl

/-! ## C29 -/

/-- The layer context after some events. -/
def feed (c : Ctx) : List (Event Ev) → Res Ctx
  | [] => .ok c
  | e :: es => do
    let c ← c.handleEvent e
    feed c es

/-- Not a layer event, and not a key press. -/
def Quiet (e : Event Ev) : Prop := (∀ i x, e ≠ .key i x) ∧ ∀ i, e ≠ .input (.press i)

/-- Layer `l` is the only sticky layer. -/
def OnlySticky (c : Ctx) (l : Nat) : Prop := ∀ l', c.layers[l']? = some .sticky ↔ l' + 1 = l

theorem stickyLayerFrom_eq {i : Nat} {ls : List Activity} :
    (∀ l, stickyLayerFrom i ls = some l → i < l ∧ ls[l - 1 - i]? = some .sticky) ∧
    (stickyLayerFrom i ls = none → ∀ j : Nat, ls[j]? ≠ some Activity.sticky) := by
  induction ls generalizing i with
  | nil => simp [stickyLayerFrom]
  | cons a as ih =>
    obtain ⟨h1, h2⟩ := ih (i := i + 1)
    cases a with
    | sticky =>
      constructor
      · intro l h
        simp only [stickyLayerFrom, Option.some.injEq] at h
        subst h
        exact ⟨by omega, by simp⟩
      · simp [stickyLayerFrom]
    | regular =>
      constructor
      · intro l h
        simp only [stickyLayerFrom] at h
        obtain ⟨a, b⟩ := h1 l h
        refine ⟨by omega, ?_⟩
        rw [show l - 1 - i = (l - 1 - (i + 1)) + 1 by omega, List.getElem?_cons_succ]
        exact b
      · intro h j
        cases j with
        | zero => simp
        | succ j => rw [List.getElem?_cons_succ]; exact h2 h j
    | inactive =>
      constructor
      · intro l h
        simp only [stickyLayerFrom] at h
        obtain ⟨a, b⟩ := h1 l h
        refine ⟨by omega, ?_⟩
        rw [show l - 1 - i = (l - 1 - (i + 1)) + 1 by omega, List.getElem?_cons_succ]
        exact b
      · intro h j
        cases j with
        | zero => simp
        | succ j => rw [List.getElem?_cons_succ]; exact h2 h j

theorem OnlySticky.stickyLayer {c : Ctx} {l : Nat} (h : OnlySticky c l) (hl : 0 < l) : c.stickyLayer = some l := by
  obtain ⟨h1, h2⟩ := stickyLayerFrom_eq (i := 0) (ls := c.layers)
  cases hs : c.stickyLayer with
  | none => exact absurd ((h (l - 1)).2 (by omega)) (h2 hs (l - 1))
  | some x =>
    obtain ⟨a, b⟩ := h1 x hs
    have := (h _).1 b
    rw [show x = l by omega]

theorem noSticky {c : Ctx} (h : ∀ l' : Nat, c.layers[l']? ≠ some Activity.sticky) : c.stickyLayer = none := by
  obtain ⟨h1, _⟩ := stickyLayerFrom_eq (i := 0) (ls := c.layers)
  cases hs : c.stickyLayer with
  | none => rfl
  | some x => exact absurd (h1 x hs).2 (h _)

theorem feed_append (c : Ctx) (es fs : List (Event Ev)) : feed c (es ++ fs) = (feed c es >>= fun c => feed c fs) := by
  induction es generalizing c with
  | nil => rfl
  | cons e es ih =>
    simp only [List.cons_append, feed]
    cases h : c.handleEvent e with
    | ok c1 => simp only [Res.ok_bind]; exact ih c1
    | panic p => rfl
    | fuel => rfl

/-- C29: pressing a sticky layer key makes its layer the sticky layer (if no other layer is sticky). -/
theorem C29_press (c : Ctx) (l : Nat) (hl : 0 < l ∧ l ≤ c.layers.length)
    (hno : ∀ l' : Nat, c.layers[l']? = some Activity.sticky → l' + 1 = l) :
    ∃ c', c.handleLayerEvent (ModifierKey.newPressedKey (.sticky l)).2 = .ok c' ∧ OnlySticky c' l ∧ c'.pressedIdx = none ∧
      ∀ l', Active c' l' ↔ l' = l ∨ Active c l' := by
  have hs := setLayer_ok c.layers .sticky hl.1 hl.2
  refine ⟨{ c with layers := c.layers.set (l - 1) .sticky, pressedIdx := none }, by simp only [ModifierKey.newPressedKey, Ctx.handleLayerEvent, hs]; rfl, ?_, rfl, ?_⟩
  · intro l'
    simp only [List.getElem?_set]
    by_cases e : l - 1 = l'
    · subst e
      rw [if_pos rfl, if_pos (by omega)]
      simp; omega
    · rw [if_neg e]
      constructor
      · exact hno l'
      · intro h; omega
  · intro l'
    rw [setLayer_active hs]
    by_cases e : l' = l <;> simp [e]

theorem handleEvent_quiet {c : Ctx} {l : Nat} (hs : c.stickyLayer = some l) {e : Event Ev} (hq : Quiet e)
    (hr : ∀ k, c.pressedIdx = some k → e ≠ .input (.release k)) : c.handleEvent e = .ok c := by
  rcases e with (k | k | k | k) | ⟨k, x⟩ | k
  · exact absurd rfl (hq.2 k)
  · simp only [Ctx.handleEvent, hs]
    rw [if_neg]
    intro h
    exact hr k h rfl
  · rfl
  · rfl
  · exact absurd rfl (hq.1 k x)
  · rfl

theorem feed_quiet {c : Ctx} {l : Nat} (hs : c.stickyLayer = some l) {es : List (Event Ev)} (hq : ∀ e ∈ es, Quiet e)
    (hr : ∀ k, c.pressedIdx = some k → .input (.release k) ∉ es) : feed c es = .ok c := by
  induction es with
  | nil => rfl
  | cons e es ih =>
    rw [feed, handleEvent_quiet hs (hq e List.mem_cons_self) (fun k hk he => hr k hk (by rw [he]; exact List.mem_cons_self))]
    exact ih (fun x hx => hq x (List.mem_cons_of_mem _ hx)) (fun k hk hm => hr k hk (List.mem_cons_of_mem _ hm))

/-- C29, provided no other layer is sticky: a sticky layer stays active while no key is pressed, stays
active while the next key is pressed, and is inactive after that key is released or another key is
pressed. The other layers keep their state. (`C29_stacked_refuted` shows what happens otherwise.) -/
theorem C29_tapped_partial (c : Ctx) (l : Nat) (h0 : 0 < l) (hs : OnlySticky c l) (hp : c.pressedIdx = none)
    (k : Nat) (pre mid : List (Event Ev)) (hpre : ∀ e ∈ pre, Quiet e) (hmid : ∀ e ∈ mid, Quiet e ∧ e ≠ .input (.release k))
    (e : Event Ev) (he : e = .input (.release k) ∨ ∃ j, e = .input (.press j)) :
    (∃ c1, feed c pre = .ok c1 ∧ ∀ l', Active c1 l' ↔ Active c l') ∧
    (∃ c2, feed c (pre ++ [.input (.press k)] ++ mid) = .ok c2 ∧ ∀ l', Active c2 l' ↔ Active c l') ∧
    (∃ c3, feed c (pre ++ [.input (.press k)] ++ mid ++ [e]) = .ok c3 ∧ (∀ l', Active c3 l' ↔ l' ≠ l ∧ Active c l') ∧
      c3.stickyLayer = none) ∧ Active c l := by
  have hst := hs.stickyLayer h0
  have hl : l ≤ c.layers.length := by
    have := (List.getElem?_eq_some_iff.1 ((hs (l - 1)).2 (by omega))).1
    omega
  have f1 : feed c pre = .ok c := feed_quiet hst hpre (by rw [hp]; simp)
  have hst2 : ({ c with pressedIdx := some k } : Ctx).stickyLayer = some l := hst
  have f2 : feed c (pre ++ [.input (.press k)] ++ mid) = .ok { c with pressedIdx := some k } := by
    rw [feed_append, feed_append, f1]
    simp only [Res.ok_bind, feed, Ctx.handleEvent, hst, hp, Option.isSome_none, Bool.false_eq_true, if_false]
    refine feed_quiet hst2 (fun e he => (hmid e he).1) ?_
    intro k' hk' hm
    simp only [Option.some.injEq] at hk'
    subst hk'
    exact (hmid _ hm).2 rfl
  have hset := setLayer_ok c.layers .inactive h0 hl
  have f3 : feed c (pre ++ [.input (.press k)] ++ mid ++ [e]) =
      .ok { c with layers := c.layers.set (l - 1) .inactive, pressedIdx := none } := by
    rw [feed_append, f2]
    rcases he with rfl | ⟨j, rfl⟩
    · simp only [Res.ok_bind, feed, Ctx.handleEvent, hst2, if_true, hset, Res.pure_eq]
    · simp only [Res.ok_bind, feed, Ctx.handleEvent, hst2, Option.isSome_some, if_true, hset, Res.pure_eq]
  refine ⟨⟨c, f1, fun _ => Iff.rfl⟩, ⟨_, f2, fun _ => Iff.rfl⟩, ⟨_, f3, ?_, ?_⟩, ?_⟩
  · intro l'
    rw [setLayer_active hset]
    simp
  · refine noSticky ?_
    intro l'
    simp only [List.getElem?_set]
    split
    · split <;> simp
    · rename_i hne
      intro h
      have := (hs l').1 h
      omega
  · exact ⟨h0, .sticky, (hs (l - 1)).2 (by omega), by simp⟩

/-- A held sticky layer key together with the layer context: the event goes to the key, then to the
context; what the key emits goes to the context afterwards. -/
def feedHeld (l idx : Nat) : Behavior × Ctx → List (Event Ev) → Res (Behavior × Ctx)
  | s, [] => .ok s
  | (b, c), ev :: evs => do
    let (b', e) := handleKeyEvent b idx ev (.sticky l)
    let c ← c.handleEvent ev
    let c ← match e with
      | some e => c.handleEvent (.key idx e)
      | none => pure c
    feedHeld l idx (b', c) evs

/-- C29, interrupted: when another key is pressed while the sticky layer key is held, the layer is active
until the sticky layer key is released, whatever other keys are pressed and released meanwhile; then it
is inactive. -/
theorem C29_interrupted (c : Ctx) (l idx : Nat) (h0 : 0 < l) (hs : OnlySticky c l) (hp : c.pressedIdx = none)
    (pre mid : List (Event Ev)) (k : Nat) (hpre : ∀ e ∈ pre, Quiet e ∧ e ≠ .input (.release idx))
    (hmid : ∀ e ∈ mid, (∀ i x, e ≠ .key i x) ∧ e ≠ .input (.release idx)) :
    (∃ s, feedHeld l idx (.sticky, c) (pre ++ [.input (.press k)] ++ mid) = .ok s ∧ ∀ l', Active s.2 l' ↔ Active c l') ∧
    (∃ s, feedHeld l idx (.sticky, c) (pre ++ [.input (.press k)] ++ mid ++ [.input (.release idx)]) = .ok s ∧
      (∀ l', Active s.2 l' ↔ l' ≠ l ∧ Active c l') ∧ s.2.stickyLayer = none) ∧ Active c l := by
  have hst := hs.stickyLayer h0
  have hl : l ≤ c.layers.length := by
    have := (List.getElem?_eq_some_iff.1 ((hs (l - 1)).2 (by omega))).1
    omega
  have happ : ∀ (es fs : List (Event Ev)) (s : Behavior × Ctx), feedHeld l idx s (es ++ fs) = (feedHeld l idx s es >>= fun s => feedHeld l idx s fs) := by
    intro es fs
    induction es with
    | nil => intro s; rfl
    | cons e es ih =>
      rintro ⟨b, c⟩
      simp only [List.cons_append, feedHeld]
      cases c.handleEvent e with
      | ok c1 =>
        simp only [Res.ok_bind]
        split
        · rename_i e' _
          cases c1.handleEvent (.key idx e') with
          | ok c2 => simp only [Res.ok_bind]; exact ih _
          | panic p => rfl
          | fuel => rfl
        · simp only [Res.pure_eq, Res.ok_bind]; exact ih _
      | panic p => rfl
      | fuel => rfl
  -- before the interruption
  have f1 : feedHeld l idx (.sticky, c) pre = .ok (.sticky, c) := by
    clear happ
    induction pre with
    | nil => rfl
    | cons e es ih =>
      have he := hpre e List.mem_cons_self
      have hk : handleKeyEvent .sticky idx e (.sticky l) = (.sticky, none) := by
        rcases e with (j | j | j | j) | ⟨j, x⟩ | j
        · exact absurd rfl (he.1.2 j)
        · simp [handleKeyEvent]
        · rfl
        · rfl
        · exact absurd rfl (he.1.1 j x)
        · rfl
      rw [feedHeld]
      simp only [hk]
      rw [handleEvent_quiet hst he.1 (by rw [hp]; simp)]
      exact ih (fun x hx => hpre x (List.mem_cons_of_mem _ hx))
  -- the interruption
  have hset := setLayer_ok c.layers .regular h0 hl
  have f2 : feedHeld l idx (.sticky, c) [.input (.press k)] =
      .ok (.regular, { c with layers := c.layers.set (l - 1) .regular, pressedIdx := some k }) := by
    simp only [feedHeld, handleKeyEvent, Ctx.handleEvent, hst, hp, Option.isSome_none, Bool.false_eq_true, if_false,
      Res.ok_bind, Ctx.handleLayerEvent, hset, Res.pure_eq]
  generalize hcr : ({ c with layers := c.layers.set (l - 1) .regular, pressedIdx := some k } : Ctx) = cr at f2
  have hnone : cr.stickyLayer = none := by
    refine noSticky ?_
    intro l'
    subst hcr
    simp only [List.getElem?_set]
    split
    · split <;> simp
    · intro h
      have := (hs l').1 h
      omega
  have hact : ∀ l', Active cr l' ↔ Active c l' := by
    intro l'
    subst hcr
    rw [setLayer_active hset]
    by_cases e : l' = l
    · subst e
      simp only [ne_eq, true_and, not_true, false_and, or_false]
      constructor
      · intro _; exact ⟨h0, .sticky, (hs (l' - 1)).2 (by omega), by simp⟩
      · intro _; simp
    · simp [e]
  -- afterwards
  have f3 : feedHeld l idx (.regular, cr) mid = .ok (.regular, cr) := by
    clear happ
    induction mid with
    | nil => rfl
    | cons e es ih =>
      have he := hmid e List.mem_cons_self
      have hk : handleKeyEvent .regular idx e (.sticky l) = (.regular, none) := by
        rcases e with (j | j | j | j) | ⟨j, x⟩ | j
        · rfl
        · have : idx ≠ j := fun h => he.2 (by rw [h])
          simp [handleKeyEvent, this]
        · rfl
        · rfl
        · exact absurd rfl (he.1 j x)
        · rfl
      have hc : cr.handleEvent e = .ok cr := by
        rcases e with (j | j | j | j) | ⟨j, x⟩ | j
        · simp only [Ctx.handleEvent, hnone]
        · simp only [Ctx.handleEvent, hnone]
        · rfl
        · rfl
        · exact absurd rfl (he.1 j x)
        · rfl
      rw [feedHeld]
      simp only [hk]
      rw [hc]
      exact ih (fun x hx => hmid x (List.mem_cons_of_mem _ hx))
  have f4 : feedHeld l idx (.sticky, c) (pre ++ [.input (.press k)] ++ mid) = .ok (.regular, cr) := by
    rw [happ, happ, f1]
    simp only [Res.ok_bind, f2, f3]
  have hlen : cr.layers.length = c.layers.length := by subst hcr; simp
  have hset2 := setLayer_ok cr.layers .inactive h0 (by rw [hlen]; exact hl)
  refine ⟨⟨_, f4, hact⟩, ⟨(.regular, { cr with layers := cr.layers.set (l - 1) .inactive }), ?_, ?_, ?_⟩,
    h0, .sticky, (hs (l - 1)).2 (by omega), by simp⟩
  · rw [happ, f4]
    simp only [Res.ok_bind, feedHeld, handleKeyEvent, and_self, if_true, Ctx.handleEvent, hnone, Ctx.handleLayerEvent, hset2, Res.pure_eq]
  · intro l'
    rw [setLayer_active hset2]
    simp [hact l']
  · refine noSticky ?_
    intro l'
    subst hcr
    simp only [List.getElem?_set]
    split
    · split
      · simp
      · simp
    · intro h
      have := (hs l').1 h
      omega

/-! ## Examples and counterexamples -/

/-- Three layers, layers 1 and 3 active; the key is transparent on layer 3. -/
example : Resolves (⟨10, [some 11, some 12, none]⟩ : LayeredKey Nat) ⟨none, [.regular, .inactive, .regular], none⟩ 11 :=
  (C27_lookup _ _ rfl (by simp) _).1 (by decide)

/-- A set key for layers 1 and 3 applied to active layers 2 and 3. -/
example : (Ctx.handleLayerEvent ⟨none, [.inactive, .regular, .regular], none⟩ (.set 0b1010)) =
    .ok ⟨none, [.regular, .inactive, .regular], none⟩ := by decide

example : OnlySticky ⟨none, [.regular, .sticky], none⟩ 2 := by
  intro l'
  match l' with
  | 0 => simp
  | 1 => simp
  | n + 2 => simp

/-- A default layer beyond the number of layers makes every later press of a layered key panic. -/
example : ((do
    let c ← Ctx.handleLayerEvent (Ctx.new 2) (.setDefault 3)
    LayeredKey.newPressedKey (⟨10, [some 11, some 12]⟩ : LayeredKey Nat) c)) = .panic .index := by decide

/-- A key that holds layer 0 panics. -/
example : Ctx.handleLayerEvent (Ctx.new 2) (.activated 0) = .panic .arith := by decide

namespace Demo
open Comp

/-- Keys: sticky layer 1, sticky layer 2, a key with a key on every layer, two keys holding layer 1. -/
def K : Keys where
  layerMods := [.sticky 1, .sticky 2, .hold 1]
  layered := [⟨.keyboard (.keyCode 6), [some (.keyboard (.keyCode 7)), some (.keyboard (.keyCode 8))]⟩]

/-- The keymap. -/
def C : Cfg Comp.Ref Comp.Ev Comp.Ctx PKS KS :=
  ⟨system K, [.layered (.modifier 0), .layered (.modifier 1), .layered (.layered 0), .layered (.modifier 2), .layered (.modifier 2)], Search.std⟩

/-- The pressed outputs after some calls. -/
def out (ops : List Op) : Res (List KeyOutput) := run C 9 (KM.new Ex.ctx) ops >>= fun km => km.pressedKeys C

/-- A tap of a key. -/
def tap (i : Nat) : List Op := [.input (.press i), .tick, .input (.release i), .tick]

end Demo

/-- C29, end to end: after a tap of the sticky layer key the next key press uses layer 1, the one after
that does not. -/
example : Demo.out (Demo.tap 0 ++ [.input (.press 2)]) = .ok [KeyOutput.fromKeyCode 7] ∧
    Demo.out (Demo.tap 0 ++ Demo.tap 2 ++ [.input (.press 2)]) = .ok [KeyOutput.fromKeyCode 6] := by decide +kernel

/-- C29, full claim (every tapped sticky layer ends with the next key), is false: after tapping two sticky
layer keys, layer 2 outlives the next key, and the one after that. -/
theorem C29_stacked_refuted :
    Demo.out (Demo.tap 0 ++ Demo.tap 1 ++ Demo.tap 2 ++ [.input (.press 2)]) = .ok [KeyOutput.fromKeyCode 8] := by decide +kernel

/-- C28, full claim (a hold key keeps its layer active while held), is false for two keys holding the
same layer: releasing one of them deactivates the layer. -/
theorem C28_two_holds_refuted :
    Demo.out [.input (.press 3), .tick, .input (.press 4), .tick, .input (.release 4), .tick, .input (.press 2)] =
      .ok [KeyOutput.fromKeyCode 6] := by decide +kernel

end Verif.Layered
