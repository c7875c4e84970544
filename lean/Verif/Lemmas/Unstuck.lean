import Verif.Spec.Unstuck
import Verif.Spec.Nothing
import Verif.Lemmas.KeyboardScan
import Verif.Lemmas.KeyboardRun
import Verif.Lemmas.Rest
import Verif.Props.Rest

/-!
# The calls that a keyboard makes, and a keyboard left alone
-/

namespace Verif.Rest

variable {R Ev Ctx PKS KS : Type} {C : Cfg R Ev Ctx PKS KS}
variable {rank : R → Nat} {D E : Nat} {w ctxW keyW : Event Ev → Nat} {G : Ctx → Prop} {cp : Ctx → Nat}

/-- `k` ticks, after each of which a report is made. -/
inductive Paced (C : Cfg R Ev Ctx PKS KS) (n : Nat) : Nat → KM R Ev Ctx PKS KS → KM R Ev Ctx PKS KS → Prop where
  | done (a : KM R Ev Ctx PKS KS) : Paced C n 0 a a
  | next {k : Nat} {a c b : KM R Ev Ctx PKS KS} (r : Reporter) : tick C n a = .ok c → Paced C n k { c with rep := r } b → Paced C n (k + 1) a b

theorem Paced.snoc {n k : Nat} {a b c : KM R Ev Ctx PKS KS} (h : Paced C n k a b) (r : Reporter) (ht : tick C n b = .ok c) :
    Paced C n (k + 1) a { c with rep := r } := by
  induction h with
  | done a => exact .next r ht (.done _)
  | next r' h1 _ ih => exact .next r' h1 (ih ht)

theorem Paced.still {n k : Nat} {a b : KM R Ev Ctx PKS KS} (h : Paced C n k a b) (hr : a.hasScheduledEvents = false) : b.hasScheduledEvents = false := by
  induction h with
  | done a => exact hr
  | next r h1 _ ih => exact ih (tick_rest hr h1).1

theorem Paced.rests (hT : Tires C rank D E w ctxW keyW G cp) {n k : Nat} {a b : KM R Ev Ctx PKS KS} (h : Paced C n k a b) (hi : Inv G a)
    (hm : 0 < a.msPerTick) (hk : pot w (E + 1) D rank cp a + a.delay ≤ k) : b.hasScheduledEvents = false := by
  induction h with
  | done a => exact Rest.rests hT n hi hm hk rfl
  | @next k a c b r h1 h2 ih =>
    have t := tick_lessens hT hi hm h1
    by_cases hx : a.hasScheduledEvents = true ∨ 0 < a.delay
    · have := t.2.2 hx
      exact ih ((inv_api hT).frame c t.1 c.idle c.delay r c.callbacks c.msPerTick) (by show 0 < c.msPerTick; rw [t.2.1]; exact hm)
        (by show pot w (E + 1) D rank cp c + c.delay ≤ k; omega)
    · have hr : a.hasScheduledEvents = false := by
        cases ha : a.hasScheduledEvents with
        | false => rfl
        | true => exact absurd (Or.inl ha) hx
      exact Paced.still h2 (show c.hasScheduledEvents = false from (tick_rest hr h1).1)

end Verif.Rest

namespace Verif.Unstuck

open Device (Along levels)
open Keyboard (still cycle quiet_rest settles settled_scan scans_append scans_one scanFrom_length key_scan scanFrom_physical)
open _root_.Verif.Spec

/-! ## Which keys are down -/

/-- A key is down for the keymap if it is for the debouncing. -/
def DownBy (f : Nat → Bool) (i : Nat) (ks : List Firmware.Key) : Prop := ∀ j (hj : j < ks.length), f (i + j) = ks[j].debounced

theorem evDown_changed (i j : Nat) (b d : Bool) : evDown j d (Firmware.stateChanged i b) = if j = i then b else d := by
  cases b <;> simp only [Firmware.stateChanged, evDown, if_true, Bool.false_eq_true, if_false, eq_comm (a := i)]

theorem down_scanFrom (ks : List Firmware.Key) : ∀ (i : Nat) (raw : List Bool) (f : Nat → Bool), DownBy f i ks →
    DownBy (fun j => (Firmware.scanFrom i ks raw).2.foldl (evDown j) (f j)) i (Firmware.scanFrom i ks raw).1 ∧
      ∀ j, (j < i ∨ i + ks.length ≤ j) → (Firmware.scanFrom i ks raw).2.foldl (evDown j) (f j) = f j := by
  induction ks with
  | nil => intro i raw s h; cases raw <;> exact ⟨h, fun _ _ => rfl⟩
  | cons k ks ih =>
    intro i raw f h
    cases raw with
    | nil => exact ⟨h, fun _ _ => rfl⟩
    | cons r rs =>
      simp only [Firmware.scanFrom, List.foldl_append, List.length_cons]
      have hh : ∀ j, ((k.scan r).2.map (Firmware.stateChanged i)).toList.foldl (evDown j) (f j) = if j = i then (k.scan r).1.debounced else f j := by
        intro j
        rcases key_scan k r with ⟨h1, h2⟩ | h1
        · rw [h1]
          simp only [Option.map_none, Option.toList_none, List.foldl_nil]
          split
          · next hji => subst hji; rw [h2]; exact h 0 (by simp)
          · rfl
        · rw [h1]
          simp only [Option.map_some, Option.toList_some, List.foldl_cons, List.foldl_nil]
          exact evDown_changed i j _ _
      simp only [hh]
      obtain ⟨g1, g2⟩ := ih (i + 1) rs (fun j => if j = i then (k.scan r).1.debounced else f j) (by
        intro j hj
        simp only
        rw [if_neg (by omega)]
        have := h (j + 1) (by simp; omega)
        rw [show i + 1 + j = i + (j + 1) by omega]
        simpa using this)
      refine ⟨?_, ?_⟩
      · intro j hj
        cases j with
        | zero =>
          have := g2 i (.inl (by omega))
          simp only [if_true] at this
          show (Firmware.scanFrom (i + 1) ks rs).2.foldl (evDown i) (if i = i then (k.scan r).1.debounced else f i) = (k.scan r).1.debounced
          rw [if_pos rfl]
          exact this
        | succ j =>
          simp only [List.length_cons] at hj
          have := g1 j (by omega)
          rw [show i + (j + 1) = i + 1 + j by omega]
          simpa using this
      · intro j hj
        rw [g2 j (by omega), if_neg (by omega)]

/-! ## The calls -/

section
variable {R Ev Ctx PKS KS : Type} {C : Cfg R Ev Ctx PKS KS} {n : Nat}

theorem run_app {km : KM R Ev Ctx PKS KS} (xs ys : List Op) : Verif.run C n km (xs ++ ys) = (Verif.run C n km xs).bind fun km => Verif.run C n km ys := by
  induction xs generalizing km with
  | nil => rfl
  | cons x xs ih =>
    simp only [List.cons_append, Verif.run]
    cases Verif.step C n km x with
    | ok a => exact ih
    | panic => rfl
    | fuel => rfl

theorem heard_app {km km1 : KM R Ev Ctx PKS KS} {xs ys : List Op} (h1 : heard C n km xs = true) (h : Verif.run C n km xs = .ok km1)
    (h2 : heard C n km1 ys = true) : heard C n km (xs ++ ys) = true := by
  induction xs generalizing km with
  | nil => cases h; exact h2
  | cons x xs ih =>
    obtain ⟨k, g1, g2⟩ := Res.bind_eq_ok.1 h
    simp only [heard, List.cons_append, Bool.and_eq_true, g1] at h1 ⊢
    exact ⟨h1.1, ih h1.2 g2⟩

theorem register_run {km km' : KM R Ev Ctx PKS KS} {evs : List InputEvent} (h : Device.register C n km evs = .ok km') :
    Verif.run C n km (evs.map .input) = .ok km' := by
  induction evs generalizing km with
  | nil => exact h
  | cons e es ih =>
    obtain ⟨k, g1, g2⟩ := Res.bind_eq_ok.1 h
    exact Res.bind_eq_ok.2 ⟨k, g1, ih g2⟩

theorem down_inputs (i : Nat) (evs : List InputEvent) (b : Bool) : (evs.map Op.input).foldl (opDown i) b = evs.foldl (evDown i) b := by
  induction evs generalizing b with
  | nil => rfl
  | cons e es ih => exact ih _

/-- The calls made so far. -/
structure Calls (C : Cfg R Ev Ctx PKS KS) (n : Nat) (km0 : KM R Ev Ctx PKS KS) (d : Device R Ev Ctx PKS KS) (ops : List Op) : Prop where
  run : Verif.run C n km0 ops = .ok d.km
  heard : heard C n km0 ops = true
  keys : ∀ op ∈ ops, Nothing.keysOnly op = true
  plain : ∀ op ∈ ops, (∃ e, op = .input e) ∨ op = .tick ∨ op = .report
  down : DownBy (fun i => keyDown i ops) 0 d.keys
  other : ∀ i, d.keys.length ≤ i → keyDown i ops = false

theorem Calls.new (count : Nat) (km0 : KM R Ev Ctx PKS KS) : Calls C n km0 (Device.new count km0) [] :=
  ⟨rfl, rfl, (fun _ h => by cases h), (fun _ h => by cases h), (fun j hj => by simp [Device.new, keyDown, Firmware.Key.new]), fun _ _ => rfl⟩

theorem keymapTick_ok {km km' : KM R Ev Ctx PKS KS} {r r' : CApi.HidReport} (h : CApi.keymapTick C n km r = .ok (km', r')) :
    ∃ km1 outs, tick C n km = .ok km1 ∧ km1.pressedKeys C = .ok outs ∧ km' = { km1 with rep := (km1.rep.report outs).1 } ∧
      r.update (km1.rep.report outs).2 = .ok r' := by
  unfold CApi.keymapTick at h
  obtain ⟨km1, h1, h⟩ := Res.bind_eq_ok.1 h
  obtain ⟨⟨km2, out⟩, h2, h⟩ := Res.bind_eq_ok.1 h
  obtain ⟨r1, h3, h⟩ := Res.bind_eq_ok.1 h
  cases h
  obtain ⟨outs, h4, h5⟩ := Res.bind_eq_ok.1 h2
  cases h5
  exact ⟨km1, outs, h1, h4, rfl, h3⟩

theorem Calls.timer {km0 : KM R Ev Ctx PKS KS} {d d' : Device R Ev Ctx PKS KS} {ops : List Op} (h : Calls C n km0 d ops) {raw : List Bool}
    (hh : Verif.heard C n d.km ((Firmware.scan d.keys raw).2.map .input) = true) (ht : Device.timer C n d raw = .ok d') :
    ∃ ops', Calls C n km0 d' ops' := by
  obtain ⟨km, h1, h2, h3⟩ := Device.timer_ok ht
  have hr := register_run h1
  have hops : ∀ op ∈ (Firmware.scan d.keys raw).2.map Op.input, Nothing.keysOnly op = true ∧ ((∃ e, op = .input e) ∨ op = .tick ∨ op = .report) := by
    intro op ho
    obtain ⟨e, he, rfl⟩ := List.mem_map.1 ho
    have := scanFrom_physical 0 d.keys raw e he
    refine ⟨?_, .inl ⟨e, rfl⟩⟩
    cases e <;> first | rfl | cases this
  have hlen : d'.keys.length = d.keys.length := by rw [h2]; exact scanFrom_length 0 d.keys raw
  obtain ⟨dn1, dn2⟩ := down_scanFrom d.keys 0 raw _ h.down
  have hd : ∀ i, keyDown i (ops ++ (Firmware.scan d.keys raw).2.map .input) = (Firmware.scanFrom 0 d.keys raw).2.foldl (evDown i) (keyDown i ops) := by
    intro i; rw [keyDown, List.foldl_append, down_inputs]; rfl
  have base : Calls C n km0 { d' with km := km } (ops ++ (Firmware.scan d.keys raw).2.map .input) := by
    refine ⟨by rw [run_app, h.run]; exact hr, heard_app h.heard h.run hh, fun op ho => ?_, fun op ho => ?_, ?_, fun i hi => ?_⟩
    · rcases List.mem_append.1 ho with ho | ho
      · exact h.keys op ho
      · exact (hops op ho).1
    · rcases List.mem_append.1 ho with ho | ho
      · exact h.plain op ho
      · exact (hops op ho).2
    · simp only [h2, hd]; exact dn1
    · simp only [hlen] at hi
      rw [hd, dn2 i (.inr (by omega))]
      exact h.other i hi
  rcases h3 with ⟨_, h3, _⟩ | ⟨_, h3, _⟩
  · obtain ⟨km1, outs, a1, a2, a3, _⟩ := keymapTick_ok h3
    have hrun2 : Verif.run C n km [.tick, .report] = .ok d'.km := by
      simp only [Verif.run, Verif.step, a1, Res.ok_bind, reportOutput, a2, a3]
      rfl
    have hdn : ∀ i, keyDown i ((ops ++ (Firmware.scan d.keys raw).2.map .input) ++ [.tick, .report]) = keyDown i (ops ++ (Firmware.scan d.keys raw).2.map .input) := by
      intro i; rw [keyDown, List.foldl_append]; rfl
    refine ⟨(ops ++ (Firmware.scan d.keys raw).2.map .input) ++ [.tick, .report], by rw [run_app, base.run]; exact hrun2,
      heard_app base.heard base.run ?_, fun op ho => ?_, fun op ho => ?_, ?_, fun i hi => ?_⟩
    · simp only [Verif.heard, Bool.true_and, Verif.step, a1, reportOutput, a2]
      rfl
    · rcases List.mem_append.1 ho with ho | ho
      · exact base.keys op ho
      · simp at ho; rcases ho with rfl | rfl <;> rfl
    · rcases List.mem_append.1 ho with ho | ho
      · exact base.plain op ho
      · simp at ho; exact .inr ho
    · simp only [hdn]; exact base.down
    · rw [hdn]; exact base.other i hi
  · subst h3
    exact ⟨_, base⟩

theorem Calls.run_all {km0 : KM R Ev Ctx PKS KS} {es : List Device.Event} : ∀ {d d' : Device R Ev Ctx PKS KS} {ops : List Op}, Calls C n km0 d ops →
    Hears C n d es → Device.run C n d es = .ok d' → ∃ ops', Calls C n km0 d' ops' := by
  induction es with
  | nil => intro d d' ops h _ hr; cases hr; exact ⟨ops, h⟩
  | cons e es ih =>
    intro d d' ops h hh hr
    obtain ⟨d1, g1, g2⟩ := Res.bind_eq_ok.1 hr
    by_cases he : ∃ raw, e = .timer raw
    · obtain ⟨raw, rfl⟩ := he
      obtain ⟨ops1, h1⟩ := h.timer (hh.1 raw rfl) g1
      exact ih h1 (hh.2 d1 g1) g2
    · obtain ⟨a1, a2, _, _⟩ := Keyboard.quiet_step (fun raw h => he ⟨raw, h⟩) g1
      exact ih (d := d1) ⟨by rw [a1]; exact h.run, h.heard, h.keys, h.plain, by rw [a2]; exact h.down, by rw [a2]; exact h.other⟩ (hh.2 d1 g1) g2

theorem hears_append {d d1 : Device R Ev Ctx PKS KS} {es fs : List Device.Event} (h1 : Device.run C n d es = .ok d1) (h : Hears C n d (es ++ fs)) :
    Hears C n d es ∧ Hears C n d1 fs := by
  induction es generalizing d with
  | nil => cases h1; exact ⟨trivial, h⟩
  | cons e es ih =>
    obtain ⟨d', g1, g2⟩ := Res.bind_eq_ok.1 h1
    obtain ⟨a, b⟩ := ih g2 (h.2 d' g1)
    exact ⟨⟨h.1, fun d2 hd => by rw [g1] at hd; cases hd; exact a⟩, b⟩

/-- The debouncing does not depend on the rest. -/
theorem keys_run {es : List Device.Event} : ∀ {d d' : Device R Ev Ctx PKS KS}, Device.run C n d es = .ok d' → d'.keys = (Firmware.scans d.keys (levels es)).1 := by
  induction es with
  | nil => intro d d' h; cases h; rfl
  | cons e es ih =>
    intro d d' hr
    obtain ⟨d1, g1, g2⟩ := Res.bind_eq_ok.1 hr
    by_cases he : ∃ raw, e = .timer raw
    · obtain ⟨raw, rfl⟩ := he
      obtain ⟨_, _, h2, _⟩ := Device.timer_ok g1
      rw [ih g2, h2]; simp [levels, Firmware.scans]
    · obtain ⟨_, a2, _, _⟩ := Keyboard.quiet_step (fun raw h => he ⟨raw, h⟩) g1
      have hlv : levels (e :: es) = levels es := by
        cases e with
        | timer raw => exact absurd ⟨raw, rfl⟩ he
        | _ => rfl
      rw [ih g2, hlv, a2]

theorem ms_run {ops : List Op} : ∀ {a b : KM R Ev Ctx PKS KS}, QInv (fun _ => True) a → (∀ op ∈ ops, (∃ e, op = .input e) ∨ op = .tick ∨ op = .report) →
    Verif.run C n a ops = .ok b → b.msPerTick = a.msPerTick := by
  induction ops with
  | nil => intro a b _ _ h; cases h; rfl
  | cons op ops ih =>
    intro a b hq ho h
    obtain ⟨c, h1, h2⟩ := Res.bind_eq_ok.1 h
    have hc : QInv (fun _ => True) c := ((qinv_api _ (Emits.trivial C)).step ⟨hq, hq⟩ h1).1
    rw [ih hc (fun o h => ho o (by simp [h])) h2]
    rcases ho op (by simp) with ⟨e, rfl⟩ | rfl | rfl
    · exact (handleInput_clock hq h1).2.1
    · exact (tick_clock hq h1).2.1
    · simp only [Verif.step] at h1
      obtain ⟨⟨c', o⟩, h3, h4⟩ := Res.bind_eq_ok.1 h1
      obtain ⟨os, _, h5⟩ := Res.bind_eq_ok.1 h3
      cases h5; cases h4; rfl

theorem Calls.ms {ctx : Ctx} {d : Device R Ev Ctx PKS KS} {ops : List Op} (h : Calls C n (KM.new ctx) d ops) : d.km.msPerTick = 1 :=
  ms_run (QInv.new _ _) h.plain h.run

/-! ## All switches open -/

/-- The switches have been open for `7 + j` scans. -/
structure Open (C : Cfg R Ev Ctx PKS KS) (n : Nat) (raw : List Bool) (km : KM R Ev Ctx PKS KS) (j : Nat) (d : Device R Ev Ctx PKS KS) : Prop where
  keys : Keyboard.Settled d.keys raw
  sizes : Device.Sizes d.report
  configured : d.usb.configured = true
  sent : d.usb.sent = true
  paced : Rest.Paced C n j km d.km
  report : 1 ≤ j → ∃ outs m old, d.km.pressedKeys C = .ok outs ∧ Device.Sizes old ∧ old.update (outs.take m) = .ok d.report
  host : d.usb.keyboard.host.getLastD (List.replicate 8 0) = d.report.keyboard ∧ d.usb.consumer.host.getLastD (List.replicate 4 0) = d.report.consumer

/-- One more scan, of whatever switches. -/
theorem after_cycle {count : Nat} {km0 : KM R Ev Ctx PKS KS} {n1 n2 : Nat} (h1 : 121 ≤ n1) (h2 : 121 ≤ n2) {es : List Device.Event} {raw : List Bool}
    {d d' : Device R Ev Ctx PKS KS} (hd : Device.run C n (Device.new count km0) es = .ok d) (hcf : .configure ∈ es)
    (hrun : Device.run C n d (cycle n1 n2 raw) = .ok d') (hal : Along C n (Device.new count km0) (es ++ cycle n1 n2 raw)) :
    ∃ d2, Device.timer C n d raw = .ok d2 ∧ d'.km = d2.km ∧ d'.keys = d2.keys ∧ d'.report = d2.report ∧ Device.Sizes d'.report ∧
      d'.usb.configured = true ∧ d'.usb.sent = true ∧
      d'.usb.keyboard.host.getLastD (List.replicate 8 0) = d'.report.keyboard ∧ d'.usb.consumer.host.getLastD (List.replicate 4 0) = d'.report.consumer := by
  obtain ⟨d2, s1, s2⟩ := Res.bind_eq_ok.1 (show (Device.step _ _ d (.timer raw)).bind (fun d => Device.run _ _ d _) = .ok d' from hrun)
  have al2 := (Keyboard.along_append hd hal).2
  have hs := Keyboard.quiet_run (quiet_rest n1 n2) s2
  have r1' : Device.run C n (Device.new count km0) (es ++ [.timer raw]) = .ok d2 :=
    Keyboard.run_append hd (by simp only [Device.run, s1, Res.ok_bind])
  have hcf1 : d.usb.configured = true := Keyboard.configured_run (.inr hcf) (Keyboard.along_append hd hal).1 hd
  have hcf2 : d2.usb.configured = true := Keyboard.configured_step hcf1 al2.1 s1
  have hal' := hal
  rw [cycle, show ∀ (x : Device.Event) (xs ys : List Device.Event), ys ++ x :: xs = (ys ++ [x]) ++ xs from fun x xs ys => by simp] at hal'
  obtain ⟨e1, e2, e3⟩ := Keyboard.delivered h1 h2 r1' hcf2 s2 hal'
  refine ⟨d2, s1, hs.1, hs.2.1, hs.2.2.1, ?_, Keyboard.configured_run (.inl hcf2) (Keyboard.along_append r1' hal').2 s2, e1, ?_, ?_⟩
  · exact ((Keyboard.LastMade.new _ _).run (Keyboard.run_append hd hrun)).1
  · rw [hs.2.2.1]; exact e2
  · rw [hs.2.2.1]; exact e3

theorem report_take (r : Reporter) (l : List KeyOutput) : ∃ m, (r.report l).2 = l.take m := by
  refine ⟨(r.report l).1.num, ?_⟩
  show (r.report l).1.reportable = _
  rw [Reporter.reportable]
  simp [Reporter.report]

theorem Open.step {count : Nat} {km0 : KM R Ev Ctx PKS KS} {n1 n2 : Nat} (h1 : 121 ≤ n1) (h2 : 121 ≤ n2) {es : List Device.Event} {raw : List Bool}
    {km : KM R Ev Ctx PKS KS} {j : Nat} {d d' : Device R Ev Ctx PKS KS} (ho : Open C n raw km j d)
    (hd : Device.run C n (Device.new count km0) es = .ok d) (hcf : .configure ∈ es)
    (hrun : Device.run C n d (cycle n1 n2 raw) = .ok d') (hal : Along C n (Device.new count km0) (es ++ cycle n1 n2 raw)) :
    Open C n raw km (j + 1) d' := by
  obtain ⟨d2, t1, a1, a2, a3, a4, a5, a6, a7⟩ := after_cycle h1 h2 hd hcf hrun hal
  obtain ⟨ka, g1, g2, g3⟩ := Device.timer_ok t1
  obtain ⟨st1, st2⟩ := settled_scan ho.keys
  rw [st1] at g1
  cases g1
  rcases g3 with ⟨_, g3, _⟩ | ⟨g3, _⟩
  · obtain ⟨km1, outs, b1, b2, b3, b4⟩ := keymapTick_ok g3
    refine ⟨by rw [a2, g2]; exact st2, a4, a5, a6, ?_, fun _ => ?_, a7⟩
    · rw [a1, b3]; exact ho.paced.snoc _ b1
    · obtain ⟨m, hm⟩ := report_take km1.rep outs
      exact ⟨outs, m, d.report, by rw [a1, b3]; exact b2, ho.sizes, by rw [a3, ← hm]; exact b4⟩
  · rw [ho.sent] at g3; cases g3

theorem Open.all {count : Nat} {km0 : KM R Ev Ctx PKS KS} {n1 n2 : Nat} (h1 : 121 ≤ n1) (h2 : 121 ≤ n2) {es : List Device.Event} {raw : List Bool}
    (hlv : ∀ r ∈ levels es, r.length = count) (hraw : raw.length = count) (hcf : .configure ∈ es) {d7 : Device R Ev Ctx PKS KS}
    (h7 : Device.run C n (Device.new count km0) (es ++ still n1 n2 raw 7) = .ok d7) : ∀ (j : Nat) {d : Device R Ev Ctx PKS KS},
    Device.run C n (Device.new count km0) (es ++ still n1 n2 raw (7 + j)) = .ok d →
    Along C n (Device.new count km0) (es ++ still n1 n2 raw (7 + j)) → Open C n raw d7.km j d := by
  intro j
  induction j with
  | zero =>
    intro d hrun hal
    rw [Nat.add_zero] at hrun hal
    rw [h7] at hrun
    cases hrun
    have hk := keys_run h7
    rw [still, ← List.append_assoc] at hal
    have h7' := h7
    rw [still, ← List.append_assoc] at h7'
    obtain ⟨d6, r1, r2⟩ := Device.run_app h7'
    obtain ⟨d2, t1, a1, a2, a3, a4, a5, a6, a7⟩ := after_cycle h1 h2 r1 (by simp [hcf]) r2 hal
    refine ⟨?_, a4, a5, a6, .done _, fun h => by omega, a7⟩
    rw [hk, Keyboard.levels_append, Keyboard.levels_still]
    exact settles (by omega) hlv hraw
  | succ j ih =>
    intro d hrun hal
    rw [← Nat.add_assoc, still, ← List.append_assoc] at hrun hal
    obtain ⟨d1, r1, r2⟩ := Device.run_app hrun
    exact (ih r1 (Keyboard.along_append r1 hal).1).step h1 h2 r1 (by simp [hcf]) r2 hal

end

end Verif.Unstuck
