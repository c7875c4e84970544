import Verif.Spec.Device
import Verif.Props.Usb
import Verif.Props.CApi
import Verif.Example

/-!
# C66: from the switches to the host
-/

namespace Verif.Device

variable {R Ev Ctx PKS KS : Type} {C : Cfg R Ev Ctx PKS KS} {n : Nat}

/-- The event on the USB side. -/
def proj (C : Cfg R Ev Ctx PKS KS) (n : Nat) (d : Device R Ev Ctx PKS KS) : Event → Usb.Event
  | .main => .main
  | .timer raw => .timer (match timer C n d raw with
    | .ok d' => packets d'.report
    | _ => packets d.report)
  | .poll ep => .poll ep
  | .configure => .configure
  | .reset => .reset

/-- The whole history on the USB side. -/
def projs (C : Cfg R Ev Ctx PKS KS) (n : Nat) (d : Device R Ev Ctx PKS KS) : List Event → List Usb.Event
  | [] => []
  | e :: es => proj C n d e :: match step C n d e with
    | .ok d' => projs C n d' es
    | _ => []

theorem timer_unsent {s : Usb.State} (h : s.sent = false) (r : Usb.Made) : s.timer r = s := by
  unfold Usb.State.timer; rw [if_neg (by rw [h]; decide)]

theorem timer_ok {d d' : Device R Ev Ctx PKS KS} {raw} (h : timer C n d raw = .ok d') :
    ∃ km, register C n d.km (Firmware.scan d.keys raw).2 = .ok km ∧ d'.keys = (Firmware.scan d.keys raw).1 ∧
      ((d.usb.sent = true ∧ CApi.keymapTick C n km d.report = .ok (d'.km, d'.report) ∧ d'.usb = d.usb.timer (packets d'.report)) ∨
       (d.usb.sent = false ∧ d'.km = km ∧ d'.report = d.report ∧ d'.usb = d.usb)) := by
  unfold timer at h
  obtain ⟨km, h1, h2⟩ := Res.bind_eq_ok.1 h
  refine ⟨km, h1, ?_⟩
  cases hs : d.usb.sent with
  | true =>
    rw [hs, if_pos rfl] at h2
    obtain ⟨⟨km', r⟩, h3, h4⟩ := Res.bind_eq_ok.1 h2
    cases h4
    exact ⟨rfl, .inl ⟨rfl, h3, rfl⟩⟩
  | false =>
    rw [hs, if_neg (by decide)] at h2
    cases h2
    exact ⟨rfl, .inr ⟨rfl, rfl, rfl, rfl⟩⟩

theorem step_usb {d d' : Device R Ev Ctx PKS KS} {e} (h : step C n d e = .ok d') : d'.usb = d.usb.step (proj C n d e) := by
  cases e with
  | main => cases h; rfl
  | timer raw =>
    have h' : timer C n d raw = .ok d' := h
    obtain ⟨km, _, _, h1 | h1⟩ := timer_ok h'
    · rw [h1.2.2]; simp only [proj, h']; rfl
    · rw [h1.2.2.2]; exact (timer_unsent h1.1 _).symm
  | poll => cases h; rfl
  | configure => cases h; rfl
  | reset => cases h; rfl

theorem run_usb : ∀ {es : List Event} {d d' : Device R Ev Ctx PKS KS}, run C n d es = .ok d' → d'.usb = d.usb.run (projs C n d es)
  | [], _, _, h => by cases h; rfl
  | e :: es, d, d', h => by
    obtain ⟨d1, h1, h2⟩ := Res.bind_eq_ok.1 h
    have := run_usb h2
    rw [this, step_usb h1, projs, h1]
    rfl

theorem run_app {d d' : Device R Ev Ctx PKS KS} : ∀ {es fs : List Event}, run C n d (es ++ fs) = .ok d' → ∃ d1, run C n d es = .ok d1 ∧ run C n d1 fs = .ok d' := by
  intro es
  induction es generalizing d with
  | nil => exact fun h => ⟨d, rfl, h⟩
  | cons e es ih =>
    intro fs h
    obtain ⟨d1, h1, h2⟩ := Res.bind_eq_ok.1 h
    obtain ⟨d2, h3, h4⟩ := ih h2
    exact ⟨d2, Res.bind_eq_ok.2 ⟨d1, h1, h3⟩, h4⟩

theorem projs_app : ∀ {es fs : List Event} {d d1 : Device R Ev Ctx PKS KS}, run C n d es = .ok d1 → projs C n d (es ++ fs) = projs C n d es ++ projs C n d1 fs
  | [], _, _, _, h => by cases h; rfl
  | e :: es, fs, d, d1, h => by
    obtain ⟨d2, h1, h2⟩ := Res.bind_eq_ok.1 h
    simp only [List.cons_append, projs, h1]
    rw [projs_app h2]

theorem projs_mains (k : Nat) (d : Device R Ev Ctx PKS KS) : projs C n d (List.replicate k .main) = List.replicate k .main := by
  induction k generalizing d with
  | zero => rfl
  | succ k ih => simp only [List.replicate_succ, projs, proj, step]; rw [ih]

theorem projs_round (d : Device R Ev Ctx PKS KS) : projs C n d round = Usb.round := rfl

/-- The report has its sizes. -/
def Sizes (r : CApi.HidReport) : Prop := r.keyboard.length = 8 ∧ r.consumer.length = 4

theorem Sizes.packets {r : CApi.HidReport} (h : Sizes r) : (packets r).Sized := by
  refine ⟨?_, rfl, ?_⟩ <;> simp [Device.packets, h.1, h.2]

theorem tick_sizes {km km' : KM R Ev Ctx PKS KS} {r r' : CApi.HidReport} (hr : Sizes r) (h : CApi.keymapTick C n km r = .ok (km', r')) : Sizes r' := by
  unfold CApi.keymapTick at h
  obtain ⟨_, _, h⟩ := Res.bind_eq_ok.1 h
  obtain ⟨⟨_, out⟩, _, h⟩ := Res.bind_eq_ok.1 h
  obtain ⟨r1, h1, h⟩ := Res.bind_eq_ok.1 h
  cases h
  unfold CApi.HidReport.update at h1
  obtain ⟨cu, _, h1⟩ := Res.bind_eq_ok.1 h1
  obtain ⟨co, _, h1⟩ := Res.bind_eq_ok.1 h1
  cases h1
  refine ⟨?_, ?_⟩
  · simp [CApi.copyInto, C01_boot_report_length, hr.1]
  · simp [CApi.copyInto, CApi.consumerLen]; omega

theorem step_sizes {d d' : Device R Ev Ctx PKS KS} {e} (h : step C n d e = .ok d') (hd : Sizes d.report) : Sizes d'.report := by
  cases e with
  | main => cases h; exact hd
  | timer raw =>
    obtain ⟨km, _, _, h1 | h1⟩ := timer_ok h
    · exact tick_sizes hd h1.2.1
    · rw [h1.2.2.1]; exact hd
  | poll => cases h; exact hd
  | configure => cases h; exact hd
  | reset => cases h; exact hd

theorem along_usb : ∀ {es : List Event} {d d' : Device R Ev Ctx PKS KS}, run C n d es = .ok d' → Along C n d es → Sizes d.report →
    Usb.Along Usb.Prompt d.usb (projs C n d es)
  | [], _, _, _, _, _ => trivial
  | e :: es, d, d', h, ha, hd => by
    obtain ⟨d1, h1, h2⟩ := Res.bind_eq_ok.1 h
    have ih := along_usb h2 (ha.2 d1 h1) (step_sizes h1 hd)
    simp only [projs, h1]
    refine ⟨?_, by rw [← step_usb h1]; exact ih⟩
    have hp := ha.1
    cases e with
    | main => trivial
    | timer raw =>
      refine ⟨?_, hp⟩
      have h1' : timer C n d raw = .ok d1 := h1
      rw [h1']; exact (step_sizes h1 hd).packets
    | poll => exact hp
    | configure => trivial
    | reset => exact hp

theorem replay_inputs {km km' : KM R Ev Ctx PKS KS} {r : CApi.HidReport} : ∀ {es : List InputEvent} {cs : List Call}, register C n km es = .ok km' →
    replay C n km r (es.map .input ++ cs) = replay C n km' r cs := by
  intro es
  induction es generalizing km with
  | nil => intro cs h; cases h; rfl
  | cons e es ih =>
    intro cs h
    obtain ⟨km1, h1, h2⟩ := Res.bind_eq_ok.1 h
    simp only [List.map_cons, List.cons_append, replay, h1, Res.ok_bind]
    exact ih h2

theorem inputs_app (es : List InputEvent) (cs : List Call) : inputs (es.map .input ++ cs) = es ++ inputs cs := by
  induction es with
  | nil => rfl
  | cons e es ih => simp [inputs, ih]

theorem other_made (s : Usb.State) (e : Usb.Event) (h : ∀ r, e ≠ .timer r) : (s.step e).made = s.made := by
  cases e with
  | main => exact (Usb.main_frame s).2
  | timer r => exact absurd rfl (h r)
  | poll ep => cases ep <;> rfl
  | configure => rfl
  | reset => rfl

/-- C66: whatever happens, the reports the firmware makes are those of the keymap, given the events of the debounced switches in their order, and
ticks in between. -/
theorem C66_made : ∀ {es : List Event} {d d' : Device R Ev Ctx PKS KS}, run C n d es = .ok d' →
    ∃ calls rs, replay C n d.km d.report calls = .ok (d'.km, rs) ∧ inputs calls = (Firmware.scans d.keys (levels es)).2 ∧
      d'.usb.made = d.usb.made ++ rs.map packets
  | [], d, _, h => by cases h; exact ⟨[], [], rfl, rfl, by simp⟩
  | e :: es, d, d', h => by
    obtain ⟨d1, h1, h2⟩ := Res.bind_eq_ok.1 h
    obtain ⟨calls, rs, h3, h4, h5⟩ := C66_made h2
    by_cases he : ∃ raw, e = .timer raw
    · obtain ⟨raw, rfl⟩ := he
      obtain ⟨km, g1, g2, g3⟩ := timer_ok h1
      have hsc : (Firmware.scans d.keys (levels (.timer raw :: es))).2 =
          (Firmware.scan d.keys raw).2 ++ (Firmware.scans (Firmware.scan d.keys raw).1 (levels es)).2 := rfl
      rw [g2] at h4
      rcases g3 with ⟨k1, k2, k3⟩ | ⟨k1, k2, k3, k4⟩
      · refine ⟨(Firmware.scan d.keys raw).2.map .input ++ .tick :: calls, d1.report :: rs, ?_, ?_, ?_⟩
        · rw [replay_inputs g1, replay, k2, Res.ok_bind]
          simp only [h3, Res.ok_bind, Res.pure_eq]
        · rw [inputs_app, hsc, inputs, h4]
        · rw [h5, k3]
          simp only [Usb.State.timer, k1, if_true, List.map_cons, List.append_assoc, List.cons_append, List.nil_append]
      · refine ⟨(Firmware.scan d.keys raw).2.map .input ++ calls, rs, ?_, ?_, ?_⟩
        · rw [replay_inputs g1, ← k2, ← k3]; exact h3
        · rw [inputs_app, hsc, h4]
        · rw [h5, k4]
    · have hne : ∀ raw, e ≠ .timer raw := fun raw h => he ⟨raw, h⟩
      have hkm : d1.km = d.km ∧ d1.report = d.report ∧ d1.keys = d.keys ∧ levels (e :: es) = levels es ∧ d1.usb.made = d.usb.made := by
        cases e with
        | main => cases h1; exact ⟨rfl, rfl, rfl, rfl, other_made _ _ (fun r h => by cases h)⟩
        | timer raw => exact absurd rfl (hne raw)
        | poll => cases h1; exact ⟨rfl, rfl, rfl, rfl, other_made _ _ (fun r h => by cases h)⟩
        | configure => cases h1; exact ⟨rfl, rfl, rfl, rfl, rfl⟩
        | reset => cases h1; exact ⟨rfl, rfl, rfl, rfl, rfl⟩
      obtain ⟨k1, k2, k3, k4, k5⟩ := hkm
      exact ⟨calls, rs, by rw [← k1, ← k2]; exact h3, by rw [k4, ← k3]; exact h4, by rw [h5, k5]⟩

theorem packets_keyboard {r : CApi.HidReport} (h : Sizes r) : (packets r).keyboard = r.keyboard ∧ (packets r).consumer = r.consumer :=
  ⟨List.take_of_length_le (by rw [h.1]; exact Nat.le_refl _), List.take_of_length_le (by rw [h.2]; exact Nat.le_refl _)⟩

theorem replay_sizes : ∀ {cs : List Call} {km km' : KM R Ev Ctx PKS KS} {r : CApi.HidReport} {rs}, Sizes r → replay C n km r cs = .ok (km', rs) → ∀ r ∈ rs, Sizes r
  | [], _, _, _, _, _, h => by cases h; simp
  | .input e :: cs, km, km', r, rs, hr, h => by
    obtain ⟨km1, _, h2⟩ := Res.bind_eq_ok.1 h
    exact replay_sizes hr h2
  | .tick :: cs, km, km', r, rs, hr, h => by
    obtain ⟨⟨km1, r1⟩, h1, h2⟩ := Res.bind_eq_ok.1 h
    obtain ⟨⟨km2, rs2⟩, h3, h4⟩ := Res.bind_eq_ok.1 h2
    cases h4
    have := tick_sizes hr h1
    intro x hx
    rcases List.mem_cons.1 hx with rfl | hx
    · exact this
    · exact replay_sizes this h3 x hx

/-- C66, from the switches to the host: after any history in which the interrupts came at no bad moment, let the main loop go round, the host ask each
end-point once, and the main loop go round again. Then the host has received, once and in order, every change of the keyboard reports (and of the
consumer reports) of the keymap, given the events of the debounced switches and ticks in between. What the host reads from them is what the reports say. -/
theorem C66_switches_partial {count : Nat} {km0 : KM R Ev Ctx PKS KS} {es : List Event} {n1 n2 : Nat} (h1 : 121 ≤ n1) (h2 : 121 ≤ n2) {d0 d : Device R Ev Ctx PKS KS}
    (h0 : run C n (new count km0) es = .ok d0) (hcf : d0.usb.configured = true)
    (hrun : run C n d0 (List.replicate n1 .main ++ round ++ List.replicate n2 .main) = .ok d)
    (ha : Along C n (new count km0) (es ++ (List.replicate n1 .main ++ round ++ List.replicate n2 .main))) :
    ∃ calls rs, replay C n km0 (new count km0).report calls = .ok (d.km, rs) ∧
      inputs calls = (Firmware.scans (List.replicate count Firmware.Key.new) (levels es)).2 ∧
      d.usb.keyboard.host = Usb.changes (List.replicate 8 0) (rs.map (·.keyboard)) ∧
      d.usb.consumer.host = Usb.changes (List.replicate 4 0) (rs.map (·.consumer)) ∧
      Host.read [] d.usb.keyboard.host = Host.read [] (rs.map (·.keyboard)) ∧ d.usb.sent = true := by
  have hall : run C n (new count km0) (es ++ (List.replicate n1 .main ++ round ++ List.replicate n2 .main)) = .ok d := by
    clear ha
    generalize new count km0 = dd at h0
    induction es generalizing dd with
    | nil => cases h0; exact hrun
    | cons e es ih =>
      obtain ⟨d1, g1, g2⟩ := Res.bind_eq_ok.1 h0
      exact Res.bind_eq_ok.2 ⟨d1, g1, ih d1 g2⟩
  have hsz : Sizes (new count km0).report := ⟨rfl, rfl⟩
  have hu := along_usb hall ha hsz
  have hpe : projs C n (new count km0) (es ++ (List.replicate n1 .main ++ round ++ List.replicate n2 .main)) =
      projs C n (new count km0) es ++ List.replicate n1 .main ++ Usb.round ++ List.replicate n2 .main := by
    obtain ⟨da, ga, gb⟩ := run_app hrun
    obtain ⟨db, gc, gd⟩ := run_app ga
    rw [projs_app h0, projs_app ga, projs_app gc, projs_mains, projs_round, projs_mains]
    simp only [List.append_assoc]
  rw [hpe] at hu
  have hus := run_usb hall
  rw [hpe] at hus
  have hcf' : (Usb.State.new.run (projs C n (new count km0) es)).configured = true := by
    have := run_usb h0
    rw [← hcf, this]; rfl
  obtain ⟨q1, q2, q3, q4⟩ := Usb.C66_delivered_partial _ n1 n2 h1 h2 hu hcf'
  have hus' : d.usb = Usb.State.new.run (projs C n (new count km0) es ++ List.replicate n1 .main ++ Usb.round ++ List.replicate n2 .main) := hus
  rw [← hus'] at q1 q2 q3 q4
  obtain ⟨calls, rs, c1, c2, c3⟩ := C66_made hall
  have hlv : levels (es ++ (List.replicate n1 .main ++ round ++ List.replicate n2 .main)) = levels es := by
    have hm : ∀ k, levels (List.replicate k .main) = [] := fun k => by
      induction k with
      | zero => rfl
      | succ k ih => exact ih
    have hla : ∀ xs ys : List Event, levels (xs ++ ys) = levels xs ++ levels ys := fun xs ys => by
      induction xs with
      | nil => rfl
      | cons x xs ih => cases x <;> simp [levels, ih]
    rw [hla, hla, hla, hm, hm]
    simp [round, levels]
  rw [hlv] at c2
  have hz := replay_sizes hsz c1
  have hmade : d.usb.made = rs.map packets := by rw [c3]; rfl
  have hk : d.usb.made.map (·.keyboard) = rs.map (·.keyboard) := by
    rw [hmade, List.map_map]; exact List.map_congr_left fun r hr => (packets_keyboard (hz r hr)).1
  have hc : d.usb.made.map (·.consumer) = rs.map (·.consumer) := by
    rw [hmade, List.map_map]; exact List.map_congr_left fun r hr => (packets_keyboard (hz r hr)).2
  rw [hk] at q3
  rw [hc] at q4
  exact ⟨calls, rs, c1, c2, q3, q4, by rw [q3]; exact Usb.read_changes (List.replicate 8 0) _, q1⟩

/-! ## An example: key 0 is held, sent, and released -/

namespace Demo

/-- The levels of the sixteen switches, key 0 down or not. -/
def level (b : Bool) : List Bool := b :: List.replicate 15 false

def hist : List Event :=
  [.configure] ++ List.replicate 7 (.timer (level true)) ++ List.replicate 121 .main ++ round ++ List.replicate 121 .main ++
    List.replicate 7 (.timer (level false))

def all : List Event := hist ++ (List.replicate 121 .main ++ round ++ List.replicate 121 .main)

/-- A check of a whole history; `Along` follows. -/
def alongB (C : Cfg R Ev Ctx PKS KS) (n : Nat) (d : Device R Ev Ctx PKS KS) : List Event → Bool
  | [] => true
  | e :: es => (match e with
      | .timer _ => (match d.usb.pc with
        | .at _ (.copy _) => false
        | _ => true)
      | .reset => d.usb.configured = false
      | .poll ep => d.usb.pc ≠ .at ep .busy
      | _ => true) && match step C n d e with
    | .ok d' => alongB C n d' es
    | _ => true

theorem alongB_sound : ∀ {es : List Event} {d : Device R Ev Ctx PKS KS}, alongB C n d es = true → Along C n d es
  | [], _, _ => trivial
  | e :: es, d, h => by
    simp only [alongB, Bool.and_eq_true] at h
    refine ⟨?_, fun d' hd => alongB_sound (by have := h.2; rw [hd] at this; exact this)⟩
    cases e with
    | main => trivial
    | timer raw =>
      intro ep i hp
      have := h.1
      simp only [hp] at this
      cases this
    | poll ep => simpa [Prompt] using h.1
    | configure => trivial
    | reset => simpa [Prompt] using h.1

example : (run Ex.C 9 (new 16 Ex.km0) hist).bind (fun d => .ok d.usb.configured) = .ok true ∧
    Along Ex.C 9 (new 16 Ex.km0) all ∧
    (run Ex.C 9 (new 16 Ex.km0) all).bind (fun d => .ok d.usb.keyboard.host) = .ok [[0, 0, 4, 0, 0, 0, 0, 0], List.replicate 8 0] :=
  ⟨by decide +kernel, alongB_sound (by decide +kernel), by decide +kernel⟩

end Demo

/-! ## What the mouse packets say -/

theorem toInt_ofInt8 {i : Int} (h : -128 ≤ i) (h' : i ≤ 127) : (BitVec.ofInt 8 i).toInt = i := by
  rw [BitVec.toInt_ofInt]
  apply Int.bmod_eq_of_le <;> simp <;> omega

/-- C67: the packet the keyboard makes of a mouse report is read by the host as the keymap's first three buttons, its movement and
its vertical scroll. (The host is not told of the other buttons and of horizontal scroll.) -/
theorem C67_packet (r : CApi.HidReport) (hx : -128 ≤ r.mouse.x ∧ r.mouse.x ≤ 127) (hy : -128 ≤ r.mouse.y ∧ r.mouse.y ≤ 127)
    (hv : -128 ≤ r.mouse.vscroll ∧ r.mouse.vscroll ≤ 127) :
    seenMouse (packets r).mouse =
      some ⟨(List.range 3).map fun i => r.mouse.buttons.getLsbD i, r.mouse.x, r.mouse.y, r.mouse.vscroll⟩ := by
  simp only [packets, seenMouse, toInt_ofInt8 hx.1 hx.2, toInt_ofInt8 hy.1 hy.2, toInt_ofInt8 hv.1 hv.2]
  rfl

example : seenMouse (packets ⟨[], [], [], ⟨0x05, -5, 10, -1, 0⟩⟩).mouse = some ⟨[true, false, true], -5, 10, -1⟩ := by decide

/-- C67: mouse buttons from the fourth on are lost: the host sees the same as if they were not pressed. -/
theorem C67_buttons_refuted (r : CApi.HidReport) :
    seenMouse (packets r).mouse =
      seenMouse (packets { r with mouse := { r.mouse with buttons := r.mouse.buttons ||| 0xF8#8 } }).mouse := by
  simp only [packets, seenMouse, BitVec.getLsbD_or]
  simp

end Verif.Device
