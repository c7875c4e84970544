import Verif.Spec.Words
import Verif.Props.Text

/-!
# C65: layers written as text
-/

namespace Verif.Codegen

open Comp (Ref Keys toOp eventsIn ticksIn fresh system)
open KeymapOutput (asBootReport)

/-! ## Words -/

/-- The words that are still to come, after the characters `w` of one. -/
def wordsFrom (b : Bool) (w s : List Char) : List (List Char) := (splitSpaces w (squeeze b s)).filter (· ≠ [])

theorem space_isSpace : isSpace ' ' = true := by decide

theorem wordsFrom_nil (b : Bool) (w : List Char) : wordsFrom b w [] = if w = [] then [] else [w] := by
  unfold wordsFrom squeeze splitSpaces
  by_cases h : w = [] <;> simp [h]

theorem wordsFrom_char {b : Bool} {w s : List Char} {c : Char} (h : isSpace c = false) : wordsFrom b w (c :: s) = wordsFrom false (w ++ [c]) s := by
  have hc : c ≠ ' ' := by
    intro hc
    rw [hc, space_isSpace] at h
    cases h
  unfold wordsFrom
  simp only [squeeze, h, Bool.false_eq_true, if_false, splitSpaces, if_neg hc]

theorem wordsFrom_space {b : Bool} {s : List Char} {c : Char} (h : isSpace c = true) : wordsFrom b [] (c :: s) = wordsFrom true [] s := by
  unfold wordsFrom
  cases b <;> simp [squeeze, h, splitSpaces]

theorem wordsFrom_end {w s : List Char} {c : Char} (hw : w ≠ []) (h : isSpace c = true) : wordsFrom false w (c :: s) = w :: wordsFrom true [] s := by
  unfold wordsFrom
  simp [squeeze, h, splitSpaces, hw]

theorem wordsFrom_any (b b' : Bool) (s : List Char) : wordsFrom b [] s = wordsFrom b' [] s := by
  cases s with
  | nil => rw [wordsFrom_nil, wordsFrom_nil]
  | cons c s =>
    cases h : isSpace c with
    | true => rw [wordsFrom_space h, wordsFrom_space h]
    | false => rw [wordsFrom_char h, wordsFrom_char h]

theorem wordsFrom_spaces {b : Bool} {sp s : List Char} (h : ∀ c ∈ sp, isSpace c = true) : wordsFrom b [] (sp ++ s) = wordsFrom true [] s := by
  induction sp generalizing b with
  | nil => exact wordsFrom_any ..
  | cons c sp ih =>
    rw [List.cons_append, wordsFrom_space (h c (List.mem_cons_self ..))]
    exact ih fun d hd => h d (List.mem_cons_of_mem _ hd)

theorem wordsFrom_chars {b : Bool} {w v s : List Char} (hv : v ≠ []) (h : ∀ c ∈ v, isSpace c = false) :
    wordsFrom b w (v ++ s) = wordsFrom false (w ++ v) s := by
  induction v generalizing b w with
  | nil => exact absurd rfl hv
  | cons c v ih =>
    rw [List.cons_append, wordsFrom_char (h c (List.mem_cons_self ..))]
    cases v with
    | nil => rfl
    | cons d v =>
      rw [ih (by simp) fun d hd => h d (List.mem_cons_of_mem _ hd)]
      simp

theorem Splits.wordsOf {s : List Char} {ws : List (List Char)} (h : Splits s ws) : wordsOf s = ws := by
  show wordsFrom false [] s = ws
  induction h with
  | done h =>
    rename_i sp
    have := wordsFrom_spaces (b := false) (s := []) h
    rw [List.append_nil] at this
    rw [this, wordsFrom_nil, if_pos rfl]
  | word h1 h2 h3 h4 h5 ih =>
    rename_i sp w rest ws
    rw [wordsFrom_spaces h1, wordsFrom_chars h2 h3, List.nil_append]
    cases rest with
    | nil =>
      rw [wordsFrom_nil, if_neg h2]
      rw [wordsFrom_nil, if_pos rfl] at ih
      rw [← ih]
    | cons c rest =>
      rw [wordsFrom_end h2 (h4 c rfl)]
      rw [wordsFrom_space (h4 c rfl)] at ih
      rw [ih]

theorem of_mem_takeWhile {p : Char → Bool} {c : Char} : ∀ {l : List Char}, c ∈ l.takeWhile p → p c = true
  | d :: l, h => by
    rw [List.takeWhile_cons] at h
    split at h
    · cases h with
      | head => assumption
      | tail _ h => exact of_mem_takeWhile h
    · cases h

theorem Splits.exists (s : List Char) : ∃ ws, Splits s ws := by
  suffices h : ∀ n (s : List Char), s.length = n → ∃ ws, Splits s ws from h _ s rfl
  intro n
  induction n using Nat.strongRecOn with
  | ind n ih =>
    intro s hs
    have e1 : s = s.takeWhile isSpace ++ s.dropWhile isSpace := (List.takeWhile_append_dropWhile ..).symm
    have h1 : ∀ c ∈ s.takeWhile isSpace, isSpace c = true := fun c hc => of_mem_takeWhile hc
    cases hd : s.dropWhile isSpace with
    | nil =>
      rw [hd, List.append_nil] at e1
      exact ⟨[], .done (by rw [e1]; exact h1)⟩
    | cons d t =>
      have hdn : isSpace d = false := by
        have := List.head_dropWhile_not isSpace (l := s) (by rw [hd]; simp)
        simpa [hd] using this
      have e2 : d :: t = (d :: t).takeWhile (fun c => !isSpace c) ++ (d :: t).dropWhile (fun c => !isSpace c) := (List.takeWhile_append_dropWhile ..).symm
      have hne : (d :: t).takeWhile (fun c => !isSpace c) ≠ [] := by simp [List.takeWhile_cons, hdn]
      obtain ⟨ws, hws⟩ := ih ((d :: t).dropWhile (fun c => !isSpace c)).length (by
        have h2 := congrArg List.length e2
        have h3 := congrArg List.length e1
        have h4 : 0 < ((d :: t).takeWhile (fun c => !isSpace c)).length := List.length_pos_iff.2 hne
        rw [hd] at h3
        simp only [List.length_append] at h2 h3
        omega) _ rfl
      refine ⟨(d :: t).takeWhile (fun c => !isSpace c) :: ws, ?_⟩
      rw [e1, hd]
      conv => arg 1; rw [e2]
      refine .word h1 hne (fun c hc => by simpa using of_mem_takeWhile hc) ?_ hws
      intro c hc
      have hx : (d :: t).dropWhile (fun c => !isSpace c) ≠ [] := by
        intro hx
        rw [hx] at hc
        cases hc
      have := List.head_dropWhile_not (fun c => !isSpace c) (l := d :: t) hx
      rw [List.head?_eq_some_head hx, Option.some.injEq] at hc
      rw [hc] at this
      simpa using this

/-- C65: the words of a layer written as text are what is between white space, however much there is, and of whichever kind. -/
theorem C65_words (s : List Char) (ws : List (List Char)) : wordsOf s = ws ↔ Splits s ws := by
  refine ⟨fun h => ?_, Splits.wordsOf⟩
  obtain ⟨ws', h'⟩ := Splits.exists s
  rw [← h, h'.wordsOf]
  exact h'

/-! ## The keys of a layer -/

theorem lookupAll_get {custom : List (String × Option NKey)} {ws : List (List Char)} {ks : List (Option NKey)} (h : lookupAll custom ws = some ks) :
    ks.length = ws.length ∧ ∀ (i : Nat) w, ws[i]? = some w → ∃ k, (keyNames ++ custom).lookup (String.ofList w) = some k ∧ ks[i]? = some k := by
  induction ws generalizing ks with
  | nil => cases h; exact ⟨rfl, fun i w hw => by cases hw⟩
  | cons v ws ih =>
    simp only [lookupAll, Option.bind_eq_bind, Option.bind_eq_some_iff, Option.pure_def, Option.some.injEq] at h
    obtain ⟨k, h1, ks', h2, rfl⟩ := h
    obtain ⟨h3, h4⟩ := ih h2
    refine ⟨by simp [h3], fun i w hw => ?_⟩
    cases i with
    | zero => cases hw; exact ⟨k, h1, rfl⟩
    | succ i => simpa using h4 i w (by simpa using hw)

theorem lookupAll_isSome {custom : List (String × Option NKey)} {ws : List (List Char)} :
    (lookupAll custom ws).isSome = ws.all fun w => ((keyNames ++ custom).lookup (String.ofList w)).isSome := by
  induction ws with
  | nil => rfl
  | cons v ws ih =>
    simp only [lookupAll, Option.bind_eq_bind, List.all_cons]
    rw [← ih]
    cases (keyNames ++ custom).lookup (String.ofList v) <;> cases lookupAll custom ws <;> rfl

theorem readLayers_get {custom : List (String × Option NKey)} {ls : List LayerSrc} {kss : List (List (Option NKey))} (h : readLayers custom ls = some kss) :
    kss.length = ls.length ∧ ∀ (l : Nat) x, ls[l]? = some x → ∃ ks, x.read custom = some ks ∧ kss[l]? = some ks := by
  induction ls generalizing kss with
  | nil => cases h; exact ⟨rfl, fun i w hw => by cases hw⟩
  | cons v ws ih =>
    simp only [readLayers, Option.bind_eq_bind, Option.bind_eq_some_iff, Option.pure_def, Option.some.injEq] at h
    obtain ⟨k, h1, ks', h2, rfl⟩ := h
    obtain ⟨h3, h4⟩ := ih h2
    refine ⟨by simp [h3], fun i w hw => ?_⟩
    cases i with
    | zero => cases hw; exact ⟨k, h1, rfl⟩
    | succ i => simpa using h4 i w (by simpa using hw)

theorem readLayers_isSome {custom : List (String × Option NKey)} {ls : List LayerSrc} :
    (readLayers custom ls).isSome = ls.all fun l => (l.read custom).isSome := by
  induction ls with
  | nil => rfl
  | cons v ws ih =>
    simp only [readLayers, Option.bind_eq_bind, List.all_cons]
    rw [← ih]
    cases v.read custom <;> cases readLayers custom ws <;> rfl

/-- C65: a layer written as text has one key for each of its words, in their order: the one with that name. A layer written as a list of keys is
that list. -/
theorem C65_layer {t : TextSrc} {s : Src} (h : t.toSrc = some s) :
    s.layers.length = t.layers.length ∧ s.chords = t.chords ∧ s.options = t.options ∧
    (∀ (l : Nat) text ws, t.layers[l]? = some (.text text) → Splits text.toList ws → ∃ ks, s.layers[l]? = some ks ∧ ks.length = ws.length ∧
      ∀ (i : Nat) w, ws[i]? = some w → ∃ k, t.named w = some k ∧ ks[i]? = some k) ∧
    ∀ (l : Nat) ks, t.layers[l]? = some (.keys ks) → s.layers[l]? = some ks := by
  simp only [TextSrc.toSrc, Option.bind_eq_bind, Option.bind_eq_some_iff, Option.pure_def, Option.some.injEq] at h
  obtain ⟨kss, h1, rfl⟩ := h
  obtain ⟨h2, h3⟩ := readLayers_get h1
  refine ⟨h2, rfl, rfl, fun l text ws hl hs => ?_, fun l ks hl => ?_⟩
  · obtain ⟨ks, h4, h5⟩ := h3 l _ hl
    simp only [LayerSrc.read, hs.wordsOf] at h4
    exact ⟨ks, h5, (lookupAll_get h4).1, (lookupAll_get h4).2⟩
  · obtain ⟨ks', h4, h5⟩ := h3 l _ hl
    cases h4
    exact h5

/-- C65: it is an error exactly if a word of a layer is not a name. -/
theorem C65_unknown (t : TextSrc) : t.toSrc = none ↔
    ∃ text ws w, LayerSrc.text text ∈ t.layers ∧ Splits text.toList ws ∧ w ∈ ws ∧ t.named w = none := by
  have h1 : t.toSrc = none ↔ (readLayers t.custom t.layers).isSome = false := by
    unfold TextSrc.toSrc
    cases readLayers t.custom t.layers <;> simp
  rw [h1, readLayers_isSome, List.all_eq_false]
  constructor
  · rintro ⟨l, hl, hn⟩
    cases l with
    | keys ks => simp [LayerSrc.read] at hn
    | text text =>
      simp only [LayerSrc.read, lookupAll_isSome, Bool.not_eq_true, List.all_eq_false] at hn
      obtain ⟨w, hw, hn⟩ := hn
      exact ⟨text, _, w, hl, (C65_words _ _).1 rfl, hw, by simpa [TextSrc.named] using hn⟩
  · rintro ⟨text, ws, w, hl, hs, hw, hn⟩
    refine ⟨_, hl, ?_⟩
    simp only [LayerSrc.read, lookupAll_isSome, hs.wordsOf, Bool.not_eq_true, List.all_eq_false]
    exact ⟨w, hw, by simpa [TextSrc.named] using hn⟩

/-! ## The names -/

/-- The names are different. -/
theorem names_nodup : (keyNames.map (·.1)).Nodup := by decide +kernel

/-- What a key of one of the names does. -/
def actOf : NKey → Option Virt.Act
  | .leaf (.callback _) => some (.cell .nothing)
  | .leaf (.consumer uc) => some (.cell (.out ⟨.consumer uc, 0⟩))
  | .leaf (.keyCode kc) =>
    if 224 ≤ kc.toNat ∧ kc.toNat ≤ 231 then some (.cell (.out ⟨.keyboard 0, 1#8 <<< (kc.toNat - 224)⟩)) else some (.cell (.out ⟨.keyboard kc, 0⟩))
  | .leaf (.modifiers m) => some (.cell (.out ⟨.keyboard 0, m.toByte⟩))
  | .leaf (.keyCodeModifiers kc m) => if 224 ≤ kc.toNat ∧ kc.toNat ≤ 231 then none else some (.cell (.out ⟨.keyboard kc, m.toByte⟩))
  | .leaf (.mouse r) => (mouseSends r).map fun o => .cell (.out ⟨.mouse o, 0⟩)
  | .leaf (.sticky m) => some (.sticky m.toByte)
  | .leaf .capsWord => some .capsWord
  | _ => none

theorem actOf_reads {k : NKey} {a : Virt.Act} (h : actOf k = some a) : VirtKey k a ∧ (∀ n, a.Fits n) ∧ k.Written ∧ k.Flat ∧ ∀ n, k.Shallow n := by
  unfold actOf at h
  split at h
  · cases h; exact ⟨.leaf (.callback _), fun _ => trivial, trivial, trivial, fun _ => trivial⟩
  · cases h; exact ⟨.leaf (.consumer _), fun _ => trivial, trivial, trivial, fun _ => trivial⟩
  · split at h
    · rename_i hr
      cases h; exact ⟨.leaf (.modCode _ (by omega) (by omega)), fun _ => trivial, trivial, trivial, fun _ => trivial⟩
    · rename_i hr
      cases h; exact ⟨.leaf (.keyCode (by omega)), fun _ => trivial, trivial, trivial, fun _ => trivial⟩
  · cases h; exact ⟨.leaf (.modifiers (ModRec.spells _)), fun _ => trivial, trivial, trivial, fun _ => trivial⟩
  · split at h
    · cases h
    · rename_i hr
      cases h; exact ⟨.leaf (.keyCodeModifiers (by omega) (ModRec.spells _)), fun _ => trivial, trivial, trivial, fun _ => trivial⟩
  · obtain ⟨o, ho, rfl⟩ := Option.map_eq_some_iff.1 h
    exact ⟨.leaf (.mouse ho), fun _ => trivial, trivial, trivial, fun _ => trivial⟩
  · cases h; exact ⟨.sticky (ModRec.spells _), fun _ => trivial, trivial, trivial, fun _ => trivial⟩
  · cases h; exact ⟨.capsWord, fun _ => trivial, trivial, trivial, fun _ => trivial⟩
  · cases h

theorem names_act : keyNames.all (fun p => match p.2 with | some k => (actOf k).isSome | none => decide (p.1 = "TTTT")) = true := by decide +kernel

/-- A capital letter as the small one, other characters as they are. -/
def small (c : Char) : Char := if 'A' ≤ c ∧ c ≤ 'Z' then Char.ofNat (c.toNat + 32) else c

theorem names_type : keyNames.all (fun p => match p.1.toList with
    | [c] => (match p.2.bind actOf with | some (.cell (.out ko)) => readAs ko == [some (small c)] | _ => false)
    | _ => true) = true := by decide +kernel

/-- C65: the names are different, and each of them stands for a plain key, a sticky modifier or caps word, but for `TTTT`, which is transparent. -/
theorem C65_names : (keyNames.map (·.1)).Nodup ∧ ∀ p ∈ keyNames, (p.2 = none ∧ p.1 = "TTTT") ∨ ∃ k a, p.2 = some k ∧ VirtKey k a := by
  refine ⟨names_nodup, fun p hp => ?_⟩
  have := List.all_eq_true.1 names_act p hp
  cases hk : p.2 with
  | none => rw [hk] at this; exact .inl ⟨rfl, by simpa using this⟩
  | some k =>
    rw [hk] at this
    obtain ⟨a, ha⟩ := Option.isSome_iff_exists.1 this
    exact .inr ⟨k, a, rfl, (actOf_reads ha).1⟩

/-- C65: the key named by one character types that character on a computer with a US keyboard (a letter: the small letter). All of the printable
characters that a key types without shift are names, and so are those with shift, but for the letters. -/
theorem C65_letters : (∀ c k, (String.singleton c, k) ∈ keyNames →
      ∃ k' ko, k = some k' ∧ VirtKey k' (.cell (.out ko)) ∧ readAs ko = [some (small c)]) ∧
    ∀ c, ' ' < c → c ≤ '~' → ¬('a' ≤ c ∧ c ≤ 'z') → ∃ k, (String.singleton c, k) ∈ keyNames := by
  constructor
  · intro c k hk
    have := List.all_eq_true.1 names_type _ hk
    simp only [String.toList_singleton] at this
    cases k with
    | none => cases this
    | some k =>
      simp only [Option.bind_some] at this
      cases ha : actOf k with
      | none => rw [ha] at this; cases this
      | some a =>
        rw [ha] at this
        have hv := (actOf_reads ha).1
        match a, this, hv with
        | .cell (.out ko), this, hv => exact ⟨k, ko, rfl, hv, by simpa using this⟩
  · intro c h1 h2 h3
    have hall : printable.all (fun c => decide (c = ' ') || decide ('a' ≤ c ∧ c ≤ 'z') || (keyNames.lookup (String.singleton c)).isSome) = true := by
      decide +kernel
    have := List.all_eq_true.1 hall c (printable_mem (show ' '.toNat ≤ c.toNat from Nat.le_of_lt h1) h2)
    simp only [Bool.or_eq_true, decide_eq_true_eq] at this
    rcases this with (rfl | h) | h
    · exact absurd h1 (by decide)
    · exact absurd h h3
    · obtain ⟨k, hk⟩ := Option.isSome_iff_exists.1 h
      exact ⟨k, lookup_mem hk⟩

/-- What the name stands for. -/
def actNamed (name : String) : Option Virt.Act := (keyNames.lookup name).join.bind actOf

theorem usages : (∀ (i : Nat) (h : i < Host.keyboardPage.length), actNamed Host.keyboardPage[i] = some (.cell (.out ⟨.keyboard (BitVec.ofNat 8 (4 + i)), 0⟩))) ∧
    (∀ (i : Nat) (h : i < Host.modifierKeys.length), actNamed Host.modifierKeys[i] = some (.cell (.out ⟨.keyboard 0, BitVec.ofNat 8 (2 ^ i)⟩))) ∧
    (∀ (i : Nat) (h : i < Host.transportKeys.length), actNamed Host.transportKeys[i] = some (.cell (.out ⟨.consumer (BitVec.ofNat 8 (0xB3 + i)), 0⟩))) ∧
    ∀ p ∈ Host.mediaKeys, actNamed p.1 = some (.cell (.out ⟨.consumer p.2, 0⟩)) := by decide +kernel

theorem actNamed_reads {name : String} {a : Virt.Act} (h : actNamed name = some a) : ∃ k, (name, some k) ∈ keyNames ∧ VirtKey k a := by
  obtain ⟨k, h1, h2⟩ := Option.bind_eq_some_iff.1 h
  exact ⟨k, lookup_mem (Option.join_eq_some_iff.1 h1), (actOf_reads h2).1⟩

/-- C65: the named keys send the usages of the HID Usage Tables: the keyboard page, the modifiers (as bits of the report), and the media keys. -/
theorem C65_usages :
    (∀ (i : Nat) (h : i < Host.keyboardPage.length), ∃ k, (Host.keyboardPage[i], some k) ∈ keyNames ∧
      VirtKey k (.cell (.out ⟨.keyboard (BitVec.ofNat 8 (4 + i)), 0⟩))) ∧
    (∀ (i : Nat) (h : i < Host.modifierKeys.length), ∃ k, (Host.modifierKeys[i], some k) ∈ keyNames ∧
      VirtKey k (.cell (.out ⟨.keyboard 0, BitVec.ofNat 8 (2 ^ i)⟩))) ∧
    (∀ (i : Nat) (h : i < Host.transportKeys.length), ∃ k, (Host.transportKeys[i], some k) ∈ keyNames ∧
      VirtKey k (.cell (.out ⟨.consumer (BitVec.ofNat 8 (0xB3 + i)), 0⟩))) ∧
    ∀ p ∈ Host.mediaKeys, ∃ k, (p.1, some k) ∈ keyNames ∧ VirtKey k (.cell (.out ⟨.consumer p.2, 0⟩)) := by
  obtain ⟨h1, h2, h3, h4⟩ := usages
  exact ⟨fun i h => actNamed_reads (h1 i h), fun i h => actNamed_reads (h2 i h), fun i h => actNamed_reads (h3 i h), fun p h => actNamed_reads (h4 p h)⟩

theorem shorts : (∀ p ∈ Host.shortKeys, actNamed p.1 = some (.cell (.out ⟨.keyboard p.2.1, p.2.2⟩))) ∧
    ∀ p ∈ Host.mouseKeys, actNamed p.1 = some (.cell (.out ⟨.mouse p.2, 0⟩)) := by decide +kernel

/-- C65: and so do the short names; the mouse keys move the way they say, and press the button they say. -/
theorem C65_short :
    (∀ p ∈ Host.shortKeys, ∃ k, (p.1, some k) ∈ keyNames ∧ VirtKey k (.cell (.out ⟨.keyboard p.2.1, p.2.2⟩))) ∧
    ∀ p ∈ Host.mouseKeys, ∃ k, (p.1, some k) ∈ keyNames ∧ VirtKey k (.cell (.out ⟨.mouse p.2, 0⟩)) :=
  ⟨fun p h => actNamed_reads (shorts.1 p h), fun p h => actNamed_reads (shorts.2 p h)⟩

set_option maxRecDepth 20000 in
/-- C65: the names that send nothing: `TTTT` leaves the position to the layers below, and the reset keys call the firmware. -/
theorem C65_special : ("TTTT", none) ∈ keyNames ∧ ("CWTG", some (.leaf .capsWord)) ∈ keyNames ∧
    (∀ name ∈ ["reset", "RST"], (name, some (.leaf (.callback .reset))) ∈ keyNames) ∧
    ∀ name ∈ ["reset_to_bootloader", "BOOT"], (name, some (.leaf (.callback .resetToBootloader))) ∈ keyNames := by
  have h : keyNames.lookup "TTTT" = some none ∧ keyNames.lookup "CWTG" = some (some (.leaf .capsWord)) ∧
      (∀ name ∈ ["reset", "RST"], keyNames.lookup name = some (some (.leaf (.callback .reset)))) ∧
      ∀ name ∈ ["reset_to_bootloader", "BOOT"], keyNames.lookup name = some (some (.leaf (.callback .resetToBootloader))) := by
    refine ⟨rfl, rfl, ?_, ?_⟩ <;> simp only [List.forall_mem_cons, List.not_mem_nil, false_imp_iff, implies_true, and_true] <;>
      exact ⟨rfl, rfl⟩
  exact ⟨lookup_mem h.1, lookup_mem h.2.1, fun n hn => lookup_mem (h.2.2.1 n hn), fun n hn => lookup_mem (h.2.2.2 n hn)⟩

end Verif.Codegen
