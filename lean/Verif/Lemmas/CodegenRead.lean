import Verif.Lemmas.CodegenWidth

/-!
# The tables of a compiled keymap read as the layout of its source
-/

namespace Verif.Codegen

open Comp (Ref Keys cellOf cellsOf entryOf layoutOf actOf actsOf posOf timedLayoutOf kindOf kindsOf placeOf virtLayoutOf stringOf tapsOf)
open Board (Cell Entry)

theorem Spells.unique {b b' : Byte} {m : ModRec} (h : Spells b m) (h' : Spells b' m) : b = b' := by
  obtain ⟨h0, h1, h2, h3, h4, h5, h6, h7⟩ := h
  obtain ⟨g0, g1, g2, g3, g4, g5, g6, g7⟩ := h'
  apply BitVec.eq_of_getLsbD_eq
  intro i hi
  match i, hi with
  | 0, _ => rw [h0, g0]
  | 1, _ => rw [h1, g1]
  | 2, _ => rw [h2, g2]
  | 3, _ => rw [h3, g3]
  | 4, _ => rw [h4, g4]
  | 5, _ => rw [h5, g5]
  | 6, _ => rw [h6, g6]
  | 7, _ => rw [h7, g7]

theorem fromKeyCode_plain : ∀ kc : Byte, kc.toNat < 224 ∨ 231 < kc.toNat → KeyOutput.fromKeyCode kc = ⟨.keyboard kc, 0⟩ := by
  decide +kernel

theorem fromKeyCode_mod : ∀ (j : Nat) (kc : Byte), j < 8 → kc.toNat = 224 + j → KeyOutput.fromKeyCode kc = ⟨.keyboard 0, 1#8 <<< j⟩ := by
  have h : ∀ j : Fin 8, ∀ kc : Byte, kc.toNat = 224 + j.val → KeyOutput.fromKeyCode kc = ⟨.keyboard 0, 1#8 <<< j.val⟩ := by decide +kernel
  exact fun j kc hj => h ⟨j, hj⟩ kc

theorem cellOf_of {K : Keys} {I : List Automation.Instruction} {l : Leaf} {r : Ref} {c : Cell} (hc : LeafCell l c) (hm : LeafMeans K I l r) :
    cellOf K r = some c := by
  cases hc with
  | callback c =>
    cases hm with
    | callback h => simp [cellOf, h]
  | consumer uc => cases hm; rfl
  | custom uc => cases hm; rfl
  | keyCode h =>
    cases hm
    simp [cellOf, Keyboard.keyOutput, fromKeyCode_plain _ h]
  | modCode j hj h =>
    cases hm
    simp [cellOf, Keyboard.keyOutput, fromKeyCode_mod j _ hj h]
  | modifiers h =>
    cases hm with
    | modifiers h' =>
      rw [h.unique h']
      rfl
  | keyCodeModifiers hk h =>
    cases hm with
    | keyCodeModifiers hi h' =>
      rw [h.unique h']
      simp [cellOf, Keyboard.keyOutput, Res.index, hi, KeyOutput.fromKeyCodeWithModifiers, fromKeyCode_plain _ hk, Mods.union]
  | mouse h =>
    cases hm
    rename_i r o
    cases r <;> simp [mouseSends] at h <;> first | (subst h; rfl) | skip
    obtain ⟨h, rfl⟩ := h
    simp [cellOf, Mouse.keyOutput, h, KeyOutput.fromMouseOutput]
  | default l =>
    cases hm with
    | layerModifier h h' => cases h'; simp [cellOf, h]
  | hold l =>
    cases hm with
    | layerModifier h h' => cases h'; simp [cellOf, h]
  | toggle l =>
    cases hm with
    | layerModifier h h' => cases h'; simp [cellOf, h]
  | set hnd hs =>
    cases hm with
    | layerModifier h h' =>
      cases h' with
      | set h' =>
        have : _ = _ := BitVec.eq_of_getLsbD_eq (fun i hi => ((h' hnd).2 i hi).trans (hs i hi).symm)
        subst this
        simp [cellOf, h]

/-- A way to read the tables: one key, the keys of the layers, a position, all positions. -/
structure Reader (K : Keys) (A P : Type) (one : A → P) (layered : A → List (Option A) → P) where
  f : Ref → Option A
  fs : List (Option Ref) → Option (List (Option A))
  p : Ref → Option P
  ps : List Ref → Option (List P)
  fsNil : fs [] = some []
  fsNone : ∀ rs as, fs rs = some as → fs (none :: rs) = some (none :: as)
  fsSome : ∀ r a rs as, f r = some a → fs rs = some as → fs (some r :: rs) = some (some a :: as)
  pOne : ∀ r a, f r = some a → p r = some (one a)
  pLayered : ∀ i e a as, K.layered[i]? = some e → f e.base = some a → fs e.layered = some as → p (.layered (.layered i)) = some (layered a as)
  psNil : ps [] = some []
  psCons : ∀ r x rs xs, p r = some x → ps rs = some xs → ps (r :: rs) = some (x :: xs)

section

variable {K : Keys} {A P : Type} {one : A → P} {layered : A → List (Option A) → P} (R : Reader K A P one layered)

theorem Reader.fs_of : ∀ {rs : List (Option Ref)} {as : List (Option A)}, as.length = rs.length →
    (∀ l : Nat, ((rs[l]?).join).isSome = ((as[l]?).join).isSome) → (∀ (l : Nat) r a, rs[l]? = some (some r) → as[l]? = some (some a) → R.f r = some a) →
    R.fs rs = some as
  | [], [], _, _, _ => R.fsNil
  | r :: rs, [], h, _, _ => by simp at h
  | [], a :: as, h, _, _ => by simp at h
  | r :: rs, a :: as, h, hs, hf => by
    have ih := Reader.fs_of (rs := rs) (as := as) (by simpa using h) (fun l => hs (l + 1)) (fun l r a h1 h2 => hf (l + 1) r a h1 h2)
    have h0 := hs 0
    simp only [List.getElem?_cons_zero, Option.join_some] at h0
    cases r with
    | none =>
      cases a with
      | none => exact R.fsNone _ _ ih
      | some a => simp at h0
    | some r =>
      cases a with
      | none => simp at h0
      | some a => exact R.fsSome _ _ _ _ (hf 0 r a rfl rfl) ih

theorem Reader.ps_of : ∀ {rs : List Ref} {xs : List P}, xs.length = rs.length → (∀ (i : Nat) r x, rs[i]? = some r → xs[i]? = some x → R.p r = some x) →
    R.ps rs = some xs
  | [], [], _, _ => R.psNil
  | r :: rs, [], h, _ => by simp at h
  | [], x :: xs, h, _ => by simp at h
  | r :: rs, x :: xs, h, hp =>
    R.psCons _ _ _ _ (hp 0 r x rfl rfl) (Reader.ps_of (rs := rs) (xs := xs) (by simpa using h) (fun i r x h1 h2 => hp (i + 1) r x h1 h2))

end

/-- If the source says something about a position, its keys are of the kind that is read. -/
theorem Says.keys {A P : Type} {one : A → P} {layered : A → List (Option A) → P} {key : NKey → A → Prop} {s : Src} {i : Nat} {x : P}
    (hx : Says key one layered s i x) {l : Nat} {k : NKey} (hk : s.at l i = some k) : ∃ a, key k a := by
  cases hx with
  | one h0 h1 h2 =>
    rcases Nat.eq_zero_or_pos l with rfl | hl
    · rw [h0] at hk
      cases hk
      exact ⟨_, h2⟩
    · rw [h1 l hl] at hk
      cases hk
  | layered h0 h1 h2 h3 h4 h5 =>
    rcases Nat.eq_zero_or_pos l with rfl | hl
    · rw [h0] at hk
      cases hk
      exact ⟨_, h2⟩
    · obtain ⟨l, rfl⟩ : ∃ m, l = m + 1 := ⟨l - 1, by omega⟩
      have := h4 l
      rw [hk] at this
      simp only [Option.isSome_some, Option.isSome_iff_exists, Option.join_eq_some_iff] at this
      obtain ⟨a, ha⟩ := this
      exact ⟨_, h5 l k a hk ha⟩

/-- The tables read as what the source says at one position. -/
theorem read_spot {s : Src} {c : Compiled} {A P : Type} {one : A → P} {layered : A → List (Option A) → P}
    {key : NKey → A → Prop} (R : Reader c.keys A P one layered) {base : List (Option NKey)} {upper : List (List (Option NKey))}
    (hlayers : s.layers = base :: upper) (hcount : c.config.layerCount = s.count)
    (hlen : ∀ e ∈ c.keys.layered, e.layered.length = c.config.layerCount)
    (hkey : ∀ k a r, key k a → Means c.keys c.config.automation.instructions k r → R.f r = some a)
    {i : Nat} {r : Ref} {x : P} (hi : i < base.length) (hx : Says key one layered s i x)
    (hst : Stacks c.keys c.config.automation.instructions s i r) : R.p r = some x := by
  cases hst with
  | base h0 h1 h2 =>
    cases hx with
    | one g0 g1 g2 =>
      rw [h0] at g0
      cases g0
      exact R.pOne _ _ (hkey _ _ _ g2 h2)
    | layered g0 g1 g2 g3 g4 g5 =>
      obtain ⟨l, hl, g⟩ := g1
      simp [h1 l hl] at g
  | layered h0 h1 hj h2 h3 h4 =>
    rename_i b j e
    cases hx with
    | one g0 g1 g2 =>
      obtain ⟨l, hl, g⟩ := h1
      simp [g1 l hl] at g
    | layered g0 g1 g2 g3 g4 g5 =>
      rename_i k a as
      rw [h0] at g0
      cases g0
      refine R.pLayered _ e _ _ hj (hkey _ _ _ g2 h2) (R.fs_of ?_ ?_ ?_)
      · rw [hlen e (List.mem_of_getElem? hj), hcount]
        simp only [hlayers, List.length_cons] at g3
        simp only [Src.count, hlayers]
        rw [if_pos]
        · omega
        · obtain ⟨l, hl, g⟩ := g1
          obtain ⟨l, rfl⟩ : ∃ m, l = m + 1 := ⟨l - 1, by omega⟩
          simp only [Src.at, hlayers, List.getElem?_cons_succ] at g
          cases hu : upper[l]? with
          | none => simp [hu] at g
          | some u =>
            rw [hu] at g
            simp only [Option.bind_some] at g
            cases ho : u[i]? with
            | none => simp [ho] at g
            | some o =>
              rw [ho] at g
              refine List.any_eq_true.2 ⟨u, List.mem_of_getElem? hu, List.any_eq_true.2 ⟨o, ?_, g⟩⟩
              exact List.mem_of_getElem? (i := i) (by rw [List.getElem?_take, if_pos hi, ho])
      · intro l
        rw [h3, g4]
      · intro l r a' hr' ha'
        have := g4 l
        rw [ha'] at this
        simp only [Option.join_some, Option.isSome_some] at this
        obtain ⟨k', hk'⟩ := Option.isSome_iff_exists.1 this.symm
        exact hkey _ _ _ (g5 l _ _ hk' ha') (h4 l _ _ hk' hr')

/-- The tables read as what the source says. -/
theorem read_layout {s : Src} {c : Compiled} (hc : compile s = some c) {A P : Type} {one : A → P} {layered : A → List (Option A) → P}
    {key : NKey → A → Prop} (R : Reader c.keys A P one layered) {layout : List P} (hr : Reads key one layered s layout)
    (hkey : ∀ k a r, key k a → Means c.keys c.config.automation.instructions k r → R.f r = some a) (hw : ∀ k a, key k a → k.width = 0) :
    R.ps c.refs = some layout ∧ c.config.layerCount = s.count ∧ c.config.chorded.maxPressed = 0 := by
  obtain ⟨base, upper, bs, ks, js, z, st⟩ := compile_stages hc
  have hlen := st.lengths
  obtain ⟨base', hb, hll⟩ := hr.length
  have hbb : base' = base := by simpa [st.layers] using hb.symm
  subst hbb
  have hwidth : ∀ i l k, i < base'.length → s.at l i = some k → k.width = 0 := by
    intro i l k hi hk
    obtain ⟨a, ha⟩ := (hr.says i _ (List.getElem?_eq_getElem (by omega))).keys hk
    exact hw _ _ ha
  have hcount := st.count hwidth (by simp [hr.chords])
  refine ⟨R.ps_of (by omega) ?_, hcount, ?_⟩
  · intro i r x hri hxi
    have hpos := st.position hri
    have hst : Stacks c.keys c.config.automation.instructions s i r := by
      cases hpos with
      | alone _ h => exact h
      | first _ _ hne _ hn _ =>
        rename_i j e _ _ _ _
        cases hee : e.chords with
        | nil => exact absurd hee hne
        | cons a t =>
          obtain ⟨c, h, _⟩ := (hn a.1).1 (by simp [hee])
          simp [hr.chords] at h
      | member h _ _ _ => simp [hr.chords] at h
    exact read_spot R st.layers hcount (fun e he => st.layered_length he) hkey
      (by have := (List.getElem?_eq_some_iff.1 hxi).1; omega) (hr.says i x hxi) hst
  · have : c.config.chorded.maxPressed = z.chordSize * 2 := by rw [st.config]; rfl
    rw [this, st.sizes, hr.chords]
    rfl

/-! ## The three readers -/

def plainReader (K : Keys) : Reader K Cell Entry .cell .layered where
  f := cellOf K
  fs := cellsOf K
  p := entryOf K
  ps := layoutOf K
  fsNil := rfl
  fsNone := fun rs as h => by simp [cellsOf, h]
  fsSome := fun r a rs as h h' => by simp [cellsOf, h, h']
  pOne := fun r a h => by
    unfold entryOf
    split
    · simp [cellOf] at h
    · simp [h]
  pLayered := fun i e a as h1 h2 h3 => by simp [entryOf, h1, h2, h3]
  psNil := rfl
  psCons := fun r x rs xs h h' => by simp [layoutOf, h, h']

def timedReader (K : Keys) : Reader K Timed.Act Timed.Pos .act .layered where
  f := actOf K
  fs := actsOf K
  p := posOf K
  ps := timedLayoutOf K
  fsNil := rfl
  fsNone := fun rs as h => by simp [actsOf, h]
  fsSome := fun r a rs as h h' => by simp [actsOf, h, h']
  pOne := fun r a h => by
    unfold posOf
    split
    · simp [actOf, cellOf] at h
    · simp [h]
  pLayered := fun i e a as h1 h2 h3 => by simp [posOf, h1, h2, h3]
  psNil := rfl
  psCons := fun r x rs xs h h' => by simp [timedLayoutOf, h, h']

def virtReader (K : Keys) (C : Automation.Config) : Reader K Virt.Act Virt.Pos .act .layered where
  f := kindOf K C
  fs := kindsOf K C
  p := placeOf K C
  ps := virtLayoutOf K C
  fsNil := rfl
  fsNone := fun rs as h => by simp [kindsOf, h]
  fsSome := fun r a rs as h h' => by simp [kindsOf, h, h']
  pOne := fun r a h => by
    unfold placeOf
    split
    · simp [kindOf, cellOf] at h
    · simp [h]
  pLayered := fun i e a as h1 h2 h3 => by simp [placeOf, h1, h2, h3]
  psNil := rfl
  psCons := fun r x rs xs h h' => by simp [virtLayoutOf, h, h']

section

variable {K : Keys} {I : List Automation.Instruction} {r : Ref} {k : NKey}

theorem plain_read {c : Cell} (hk : PlainKey k c) (hm : Means K I k r) : cellOf K r = some c := by
  cases hk with
  | leaf hl => cases hm with | leaf hm => exact cellOf_of hl hm

theorem timed_read {a : Timed.Act} (hk : TimedKey k a) (hm : Means K I k r) : actOf K r = some a := by
  cases hk with
  | leaf hl =>
    cases hm with
    | leaf hm =>
      have h := cellOf_of hl hm
      unfold actOf
      split
      · simp [cellOf] at h
      · simp [h]
  | hold ht hh =>
    cases hm with
    | hold h1 h2 h3 =>
      cases h2 with
      | leaf h2 =>
        cases h3 with
        | leaf h3 => simp [actOf, h1, cellOf_of ht h2, cellOf_of hh h3]

theorem tapsOf_map (kos : List KeyOutput) : tapsOf (kos.map .tap) = some kos := by
  induction kos with
  | nil => rfl
  | cons k kos ih => simp [tapsOf, ih]

theorem virt_read {d : Nat} {a : Virt.Act} (hk : VirtKey k a) (hm : Means K I k r) : kindOf K ⟨I, d⟩ r = some a := by
  cases hk with
  | leaf hl =>
    cases hm with
    | leaf hm =>
      have h := cellOf_of hl hm
      unfold kindOf
      split
      · simp [cellOf] at h
      · simp [cellOf] at h
      · simp [cellOf] at h
      · simp [h]
  | sticky hs =>
    cases hm with
    | leaf hm =>
      cases hm with
      | sticky h h' => simp [kindOf, h, hs.unique h']
  | capsWord =>
    cases hm with
    | leaf hm => cases hm; rfl
  | string hne =>
    cases hm with
    | leaf hm =>
      cases hm with
      | automation h h1 h2 h3 =>
        rename_i kos i e
        obtain ⟨h1, h1l⟩ := h1
        have hlen := congrArg List.length h1
        simp only [List.length_take, List.length_drop, List.length_map] at hlen h1l
        have hpos := List.length_pos_iff.2 hne
        simp only [kindOf, h]
        rw [if_pos ⟨h2.2, h3.2⟩]
        simp only [stringOf]
        rw [if_pos ⟨by omega, by omega⟩, h1, tapsOf_map]
        rfl

end

end Verif.Codegen
