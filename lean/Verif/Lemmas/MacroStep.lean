import Verif.Lemmas.MacroExec
import Verif.Lemmas.VirtPress

/-!
# One event on the keymap and on the keyboard that types strings
-/

namespace Verif.Comp

open Virt (Pos Act Mode Slot)
open Macro (Timer)

/-- The event a timer stands for. -/
def timerEvent : Timer → Event Ev
  | .up ko => .input (.vrelease ko)
  | .next i => .key i (.automation .nextInstruction)
  | .done i => .key i (.automation .executionFinished)

/-- The scheduled event a timer stands for. -/
def timed (p : Nat × Timer) : Verif.Timed Ev := ⟨p.1, timerEvent p.2, true⟩

/-- The firmware and the keyboard, apart from the input queue. -/
structure MRel (K : Keys) (A : Automation.Config) (count : Nat) (mode : Mode) (km : CKM) (s : Macro.State) (is : List Nat) : Prop where
  board : VRel K A count mode km.ctx km.pressed s.board is
  config : km.ctx.automation.config = A
  strings : ∃ xs, Automation.Holds km.ctx.automation xs ∧ xs.map (stringOf A) = s.strings.map some
  timers : km.sched.scheduled = s.timers.map timed
  clock : km.sched.counter = s.clock

/-- Only the context, the pressed inputs, the callback trace and the scheduler differ. -/
def MFrame (km km' : CKM) : Prop := ∃ ctx ps f sch, km' = { km with ctx := ctx, pressed := ps, fired := f, sched := sch }

theorem Frame.toM {a b : CKM} (h : Frame a b) : MFrame a b := by
  obtain ⟨ctx, ps, f, q, rfl, _, _⟩ := h
  exact ⟨_, _, _, _, rfl⟩

theorem MFrame.trans {a b c : CKM} (h : MFrame a b) (h' : MFrame b c) : MFrame a c := by
  obtain ⟨ctx, ps, f, q, rfl⟩ := h
  obtain ⟨ctx', ps', f', q', rfl⟩ := h'
  exact ⟨_, _, _, _, rfl⟩

theorem MFrame.pend {a b : CKM} (h : MFrame a b) : b.pend = a.pend := by obtain ⟨_, _, _, _, rfl⟩ := h; rfl

/-- Some immediate events are handled; the rest of the queue can be handled as before. -/
def MHandles (C : Cfg Ref Ev Ctx PKS KS) (k : Nat) (km km1 : CKM) : Prop :=
  MFrame km km1 ∧ ∀ d km', Drains C d km1 km' → Drains C (d + k) km km'

theorem Handles.toM {C : Cfg Ref Ev Ctx PKS KS} {k : Nat} {a b : CKM} (h : Handles C k a b) : MHandles C k a b := ⟨h.1.toM, h.2⟩

theorem MHandles.refl (C : Cfg Ref Ev Ctx PKS KS) (km : CKM) : MHandles C 0 km km := (Handles.refl C km).toM

theorem MHandles.trans {C : Cfg Ref Ev Ctx PKS KS} {k l : Nat} {a b c : CKM} (h : MHandles C k a b) (h' : MHandles C l b c) :
    MHandles C (k + l) a c := by
  refine ⟨h.1.trans h'.1, ?_⟩
  intro d km' hd
  have := h.2 _ _ (h'.2 _ _ hd)
  rw [show d + (k + l) = d + l + k by omega]
  exact this

variable {K : Keys} {A : Automation.Config} {refs : List Ref} {S : Search} {count : Nat} {mode : Mode} {is : List Nat}

/-- A step that leaves the macros alone. -/
theorem MRel.frame {km km1 : CKM} {s : Macro.State} {b : Virt.State} {is' : List Nat} (h : MRel K A count mode km s is) (hf : Frame km km1)
    (hb : VRel K A count mode km1.ctx km1.pressed b is') : MRel K A count mode km1 { s with board := b } is' := by
  obtain ⟨ctx, ps, f, q, rfl, h1, h2⟩ := hf
  refine ⟨hb, ?_, ?_, h.timers, h.clock⟩
  · show ctx.automation.config = A; rw [h2]; exact h.config
  · show ∃ xs, Automation.Holds ctx.automation xs ∧ _; rw [h2]; exact h.strings

theorem sched_after {sch : Sched Ev} {s s' : Macro.State} {d : Nat} {x : Timer} (h1 : sch.scheduled = s.timers.map timed) (h2 : sch.counter = s.clock)
    (ha : s.after S d x = some s') (ht : s.clock + d < u32Size) :
    sch.scheduleEvent S (SchEv.after d (timerEvent x)) = .ok { sch with scheduled := s'.timers.map timed } ∧
      s' = { s with timers := s'.timers } := by
  unfold Macro.State.after at ha
  split at ha
  · rename_i hlt
    simp only [Option.some.injEq] at ha
    subst ha
    refine ⟨?_, rfl⟩
    have hm : (s.timers.map timed).map Verif.Timed.time = s.timers.map Prod.fst := by
      rw [List.map_map]; rfl
    simp only [Sched.scheduleEvent, SchEv.after, Sched.scheduleAfter, h1, h2, ht, if_true, List.length_map, Sched.scheduledCap, hlt, hm]
    simp only [List.map_append, List.map_cons, List.map_take, List.map_drop]
    rfl
  · cases ha

theorem ctx_automation {c : Ctx} {a' : Automation.Ctx} {out : KeyEvents Automation.Ev} {i : Nat} {e : Automation.Ev}
    (h : c.automation.handleEvent (.key i e) = .ok (a', out)) (hl : out.length ≤ 4) :
    c.handleEvent (.key i (.automation e)) = .ok ({ c with automation := a' }, out.mapEv .automation) := by
  unfold Ctx.handleEvent
  simp only [sub, Event.tryInto, Ev.toAutomation?, Ev.toCapsWord?, Ev.toChorded?, Ev.toLayered?, Ev.toSticky?, Option.map_none, Option.map_some, h,
    Res.ok_bind]
  rw [extend_nil _ (by simpa [KeyEvents.mapEv] using hl)]
  rfl

theorem letterEvents_map (i : Nat) (k : KeyOutput) (ks : List KeyOutput) (more : Bool) :
    (Automation.letterEvents A i k ks more).mapEv Ev.automation =
      SchEv.imm (.input (.vpress k)) :: SchEv.after A.duration (timerEvent (.up k)) ::
        SchEv.after A.duration (timerEvent (if ks = [] then .done i else .next i)) ::
          (if ks = [] ∧ more = true then [SchEv.after A.duration (timerEvent (.next i))] else []) := by
  cases ks <;> cases more <;> rfl

/-- Scheduling what the first letter emits. -/
theorem sched_letter {sch : Sched Ev} {s s' : Macro.State} {i : Nat} {k : KeyOutput} {ks : List KeyOutput} {rest : List (List KeyOutput)}
    {more : Bool} (hmore : more = true ↔ rest ≠ []) (h1 : sch.scheduled = s.timers.map timed) (h2 : sch.counter = s.clock)
    (hs : s.strings = (k :: ks) :: rest) (hq : sch.pending.length < 31) (ht : s.clock + A.duration < u32Size)
    (hl : s.letter S A.duration i = some s') :
    sch.scheduleAll S ((Automation.letterEvents A i k ks more).mapEv Ev.automation) =
        .ok { sch with pending := sch.pending ++ [some (.input (.vpress k))], scheduled := s'.timers.map timed } ∧
      s.board.held.length < 16 ∧
      s'.board = { s.board with held := s.board.held ++ [Slot.virt k] } ∧ s'.strings = (if ks = [] then rest else ks :: rest) ∧
      s'.clock = s.clock ∧ s'.typed = s.typed ++ [k] ∧ s'.asked = s.asked := by
  rw [letterEvents_map]
  unfold Macro.State.letter at hl
  rw [hs] at hl
  simp only [Option.bind_eq_some_iff] at hl
  obtain ⟨s1, a1, s2, a2, s3, a3, a4⟩ := hl
  have e0 : sch.scheduleEvent S (SchEv.imm (.input (.vpress k))) = .ok { sch with pending := sch.pending ++ [some (.input (.vpress k))] } := by
    simp only [Sched.scheduleEvent, SchEv.imm, Sched.enqueue]
    have : pushCap Sched.pendingCap sch.pending (some (.input (.vpress k))) = .ok (sch.pending ++ [some (.input (.vpress k))]) := by
      rw [pushCap_eq_ok]; exact ⟨hq, rfl⟩
    rw [this]
    rfl
  obtain ⟨b1, c1⟩ := sched_after (sch := { sch with pending := sch.pending ++ [some (.input (.vpress k))] })
    (s := { s with strings := if ks = [] then rest else ks :: rest }) h1 h2 a1 ht
  have c1c : s1.clock = s.clock := by rw [c1]
  obtain ⟨b2, c2⟩ := sched_after (sch := { sch with pending := sch.pending ++ [some (.input (.vpress k))], scheduled := s1.timers.map timed })
    rfl (by rw [c1c]; exact h2) a2 (by rw [c1c]; exact ht)
  have c2c : s2.clock = s.clock := by rw [c2]; exact c1c
  simp only [Macro.State.down] at a4
  split at a4
  · rename_i h16
    have fin : s3 = { s2 with timers := s3.timers } →
        s.board.held.length < 16 ∧
        s'.board = { s.board with held := s.board.held ++ [Slot.virt k] } ∧ s'.strings = (if ks = [] then rest else ks :: rest) ∧
        s'.clock = s.clock ∧ s'.typed = s.typed ++ [k] ∧ s'.asked = s.asked := by
      intro h3
      have hb : s3.board = s.board := by rw [h3, c2, c1]
      have hst : s3.strings = if ks = [] then rest else ks :: rest := by rw [h3, c2, c1]
      have hc : s3.clock = s.clock := by rw [h3]; exact c2c
      have hty : s3.typed = s.typed := by rw [h3, c2, c1]
      have has : s3.asked = s.asked := by rw [h3, c2, c1]
      simp only [Option.some.injEq] at a4
      subst a4
      rw [hb] at h16
      exact ⟨h16, by rw [← hb], hst, hc, by rw [← hty], has⟩
    have hts : s'.timers = s3.timers := by
      simp only [Option.some.injEq] at a4; subst a4; rfl
    by_cases hm : ks = [] ∧ rest ≠ []
    · rw [if_pos hm] at a3
      obtain ⟨b3, c3⟩ := sched_after (sch := { sch with pending := sch.pending ++ [some (.input (.vpress k))], scheduled := s2.timers.map timed })
        rfl (by rw [c2c]; exact h2) a3 (by rw [c2c]; exact ht)
      refine ⟨?_, fin c3⟩
      rw [show (if ks = [] ∧ more = true then [SchEv.after A.duration (timerEvent (.next i))] else []) =
        [SchEv.after A.duration (timerEvent (.next i))] from if_pos ⟨hm.1, hmore.2 hm.2⟩]
      simp only [Sched.scheduleAll, e0, b1, b2, b3, Res.ok_bind, hts]
    · rw [if_neg hm] at a3
      simp only [Option.some.injEq] at a3
      subst a3
      refine ⟨?_, fin rfl⟩
      rw [show (if ks = [] ∧ more = true then [SchEv.after A.duration (timerEvent (.next i))] else []) = [] from
        if_neg (fun hx => hm ⟨hx.1, hmore.1 hx.2⟩)]
      simp only [Sched.scheduleAll, e0, b1, b2, Res.ok_bind, hts]
  · cases a4

/-- The next letter is typed, by an event that makes the firmware execute the first queued string. -/
theorem MRel.exec {km : CKM} {s s' : Macro.State} {i : Nat} {e : Automation.Ev} {a : Automation.Ctx} {k : KeyOutput} {ks : List KeyOutput}
    {rest : List (List KeyOutput)} {more : Bool} (h : MRel K A count mode km { s with strings := s.strings } is)
    (hp : km.pend = none) (hq : km.sched.pending = [some (.key i (.automation e))]) (he : e ≠ .executionFinished)
    (hh : km.ctx.automation.handleEvent (.key i e) = .ok (a, Automation.letterEvents A i k ks more)) (hmore : more = true ↔ rest ≠ [])
    (hac : a.config = A) (hxs : ∃ xs, Automation.Holds a xs ∧ xs.map (stringOf A) = s'.strings.map some)
    {s0 : Macro.State} {as : List KeyOutput} (h0 : s0 = { s with strings := (k :: ks) :: rest, asked := as })
    (ht : s.clock + A.duration < u32Size) (hl : s0.letter S A.duration i = some s') :
    ∃ km1, MHandles ⟨system K, refs, S⟩ 2 km km1 ∧ km1.sched.pending = [] ∧ MRel K A count mode km1 s' is := by
  subst h0
  have hlen : (Automation.letterEvents A i k ks more).length ≤ 4 := by
    unfold Automation.letterEvents
    rw [List.length_append]
    simp only [List.length_cons, List.length_nil]
    have : (if ks = [] ∧ more = true then [SchEv.after A.duration (Event.key i Automation.Ev.nextInstruction)] else []).length ≤ 1 := by
      by_cases hc : ks = [] ∧ more = true
      · rw [if_pos hc]; simp
      · rw [if_neg hc]; simp
    omega
  have hc := ctx_automation hh hlen
  obtain ⟨hs1, hs2, hs3, hs4, hs5, _, _⟩ := sched_letter (A := A) (sch := { km.sched with pending := [] }) (s := { s with strings := (k :: ks) :: rest, asked := as }) hmore
    (by exact h.timers) (by exact h.clock) rfl (by simp) ht hl
  have hf : ∃ f, ({ km with sched := { km.sched with pending := [] } } : CKM).fire (.key i (.automation e)) =
      { km with fired := f, sched := { km.sched with pending := [] } } := ⟨_, rfl⟩
  obtain ⟨f, hf⟩ := hf
  obtain ⟨e0, _, hn1⟩ := Slots.notifyAll (refs := refs) (S := S) (km := { km with fired := f, sched := { km.sched with pending := [] } })
    h.board.held h.board.nodup hc
  have hna : s.board.held.flatMap (slotAnswer e0 (.key i (.automation e))) = [] := slotAnswer_nil (by simp) (by simp [he]) _ _
  obtain ⟨ps1, n1, sl1⟩ := hn1 ({ km.sched with pending := [some (.input (.vpress k))], scheduled := s'.timers.map timed })
    (by rw [hna, List.nil_append]; exact hs1)
  rw [slotNext_id (by simp)] at sl1
  have hv : VRel K A count mode { km.ctx with automation := a } ps1 s.board is := { h.board with held := sl1 }
  obtain ⟨km2, b1, b2, b3⟩ := VRel.vpress (refs := refs) (S := S) (q := []) (km := { km with
      fired := f
      pressed := ps1
      ctx := { km.ctx with automation := a }
      sched := { km.sched with pending := [some (.input (.vpress k))], scheduled := s'.timers.map timed } }) hv hp rfl (by simp) hs2
  refine ⟨km2, ⟨MFrame.trans ⟨_, _, _, _, rfl⟩ b1.1.toM, ?_⟩, b2, ?_⟩
  · intro d km' hd
    have := b1.2 _ _ hd
    exact .other hq (by simp) hp (by rw [hf]; exact n1) this
  · obtain ⟨⟨ctx, ps, f', q, rfl, h1, h2⟩, _⟩ := b1
    simp only at h1 h2 b3
    refine ⟨?_, ?_, ?_, rfl, ?_⟩
    · rw [hs3]; exact b3
    · show ctx.automation.config = A; rw [h2]; exact hac
    · show ∃ xs, Automation.Holds ctx.automation xs ∧ _; rw [h2]; exact hxs
    · rw [hs5]; exact h.clock

/-- A "next instruction" event. -/
theorem MRel.next {km : CKM} {s s' : Macro.State} {i : Nat} (h : MRel K A count mode km s is) (hA : A.instructions.length ≤ 65535)
    (hp : km.pend = none) (hq : km.sched.pending = [some (.key i (.automation .nextInstruction))]) (ht : s.clock + A.duration < u32Size)
    (hl : s.letter S A.duration i = some s') :
    ∃ km1 k, MHandles ⟨system K, refs, S⟩ k km km1 ∧ k ≤ 2 ∧ km1.sched.pending = [] ∧ MRel K A count mode km1 s' is := by
  obtain ⟨xs, hx1, hx2⟩ := h.strings
  have hx1' := hx1
  obtain ⟨g1, g2, g3⟩ := hx1
  cases xs with
  | nil =>
    have hst : s.strings = [] := by simpa using hx2.symm
    have hss : s' = s := by
      unfold Macro.State.letter at hl
      rw [hst] at hl
      simpa using hl.symm
    subst hss
    have hidx : Res.index km.ctx.automation.queue 0 = .ok Automation.Execution.empty := by rw [Res.index_eq_ok, g1]; rfl
    have hc : km.ctx.automation.handleEvent (.key i .nextInstruction) = .ok (km.ctx.automation, []) := by
      simp only [Automation.Ctx.handleEvent, hidx, Res.ok_bind]
      rfl
    obtain ⟨km1, a1, a2, a3⟩ := h.board.event (refs := refs) (S := S) (s' := s'.board) (evs := []) (ctx := km.ctx) hp hq (by simp) (by simp) (by simp)
      (ctx_automation hc (by simp)) (by simp) rfl rfl rfl (fun ps' hps => { h.board with held := hps })
    exact ⟨km1, 1, a1.toM, by omega, by simpa using a2, h.frame a1.1 a3⟩
  | cons x xs =>
    have hxl : 0 < x.length := g3 x List.mem_cons_self
    have hxe : x.isEmpty = false := by simp [Automation.Execution.isEmpty]; omega
    cases hst : s.strings with
    | nil => rw [hst] at hx2; simp at hx2
    | cons kos rest =>
      rw [hst] at hx2
      simp only [List.map_cons, List.cons.injEq] at hx2
      obtain ⟨hx2, hx3⟩ := hx2
      obtain ⟨hne, _⟩ := Automation.stringOf_ne hx2
      cases kos with
      | nil => exact absurd rfl hne
      | cons k ks =>
        obtain ⟨c', xs', e1, e2, e3, e4⟩ := Automation.executeHead_string hx1' h.config hA hx2 i
        have hidx : Res.index km.ctx.automation.queue 0 = .ok x := by rw [Res.index_eq_ok, g1]; rfl
        have hc : km.ctx.automation.handleEvent (.key i .nextInstruction) = .ok (c', Automation.letterEvents A i k ks (!xs.isEmpty)) := by
          simp only [Automation.Ctx.handleEvent, hidx, Res.ok_bind, hxe]
          exact e1
        have hmore : (!xs.isEmpty) = true ↔ rest ≠ [] := by
          cases xs with
          | nil => simp at hx3; simp [hx3]
          | cons y ys => cases rest with
            | nil => simp at hx3
            | cons _ _ => simp
        have hss : s'.strings = if ks = [] then rest else ks :: rest := by
          have := (sched_letter (A := A) (sch := { km.sched with pending := [] }) hmore h.timers h.clock hst (by simp) ht hl).2.2.2.1
          rw [this]
        obtain ⟨km1, b1, b2, b3⟩ := MRel.exec (refs := refs) (S := S) (s := s) h hp hq (by simp) hc hmore e2
          ⟨xs', e3, by rw [e4, hss]; split <;> simp [hx3]⟩ (by rw [← hst]) ht hl
        exact ⟨km1, 2, b1, by omega, b2, b3⟩

/-- A request for a string. -/
theorem MRel.enqueue {km : CKM} {s s' : Macro.State} {i : Nat} {x : Automation.Execution} {kos : List KeyOutput} (h : MRel K A count mode km s is)
    (hA : A.instructions.length ≤ 65535) (hx : stringOf A x = some kos)
    (hp : km.pend = none) (hq : km.sched.pending = [some (.key i (.automation (.enqueue x)))]) (ht : s.clock + A.duration < u32Size)
    (hl : s.request S A.duration i kos = some s') :
    ∃ km1 k, MHandles ⟨system K, refs, S⟩ k km km1 ∧ k ≤ 2 ∧ km1.sched.pending = [] ∧ MRel K A count mode km1 s' is := by
  obtain ⟨hne, hxl⟩ := Automation.stringOf_ne hx
  have hxe : x.isEmpty = false := by simp [Automation.Execution.isEmpty]; omega
  obtain ⟨xs, hx1, hx2⟩ := h.strings
  obtain ⟨q1, q2⟩ := hx1.enqueue x hxl
  obtain ⟨g1, g2, g3⟩ := hx1
  unfold Macro.State.request at hl
  cases xs with
  | nil =>
    have hst : s.strings = [] := by simpa using hx2.symm
    rw [if_pos hst] at hl
    simp only [List.length_nil, show (0 : Nat) < 8 by omega, if_true, List.nil_append] at q1
    have hidx : Res.index km.ctx.automation.queue 0 = .ok Automation.Execution.empty := by rw [Res.index_eq_ok, g1]; rfl
    cases kos with
    | nil => exact absurd rfl hne
    | cons k ks =>
      obtain ⟨c', xs', e1, e2, e3, e4⟩ := Automation.executeHead_string q1 (q2.trans h.config) hA hx i
      have hc : km.ctx.automation.handleEvent (.key i (.enqueue x)) = .ok (c', Automation.letterEvents A i k ks false) := by
        simp only [Automation.Ctx.handleEvent, hidx, Res.ok_bind, hxe]
        exact e1
      have hss : s'.strings = if ks = [] then [] else [ks] := by
        have := (sched_letter (A := A) (more := false) (sch := { km.sched with pending := [] }) (s := { s with strings := [k :: ks], asked := s.asked ++ (k :: ks) }) (by simp) h.timers h.clock
          rfl (by simp) ht hl).2.2.2.1
        rw [this]
      obtain ⟨km1, b1, b2, b3⟩ := MRel.exec (refs := refs) (S := S) (s := s) (rest := []) h hp hq (by simp) hc (by simp) e2
        ⟨xs', e3, by rw [e4, hss]; split <;> rfl⟩ rfl ht hl
      exact ⟨km1, 2, b1, by omega, b2, b3⟩
  | cons y ys =>
    have hyl : 0 < y.length := g3 y List.mem_cons_self
    have hye : y.isEmpty = false := by simp [Automation.Execution.isEmpty]; omega
    have hst : s.strings ≠ [] := by intro h0; rw [h0] at hx2; simp at hx2
    rw [if_neg hst] at hl
    have hl : s' = { s with
        strings := if s.strings.length < 8 then s.strings ++ [kos] else s.strings
        asked := if s.strings.length < 8 then s.asked ++ kos else s.asked } := by
      split at hl <;> simp only [Option.some.injEq] at hl <;> subst hl <;> simp [*]
    have hidx : Res.index km.ctx.automation.queue 0 = .ok y := by rw [Res.index_eq_ok, g1]; rfl
    have hc : km.ctx.automation.handleEvent (.key i (.enqueue x)) = .ok (km.ctx.automation.enqueue x, []) := by
      simp only [Automation.Ctx.handleEvent, hidx, Res.ok_bind, hxe, hye]
      rfl
    have hleq : (y :: ys).length = s.strings.length := by
      have := congrArg List.length hx2
      simpa using this
    have hf : ∃ f, ({ km with sched := { km.sched with pending := [] } } : CKM).fire (.key i (.automation (.enqueue x))) =
      { km with fired := f, sched := { km.sched with pending := [] } } := ⟨_, rfl⟩
    obtain ⟨f, hf⟩ := hf
    obtain ⟨ps1, n1, sl1⟩ := VRel.notify (refs := refs) (S := S) (evs := []) (km := { km with fired := f, sched := { km.sched with pending := [] } })
      h.board (by simp) (by simp) (by simp) (ctx_automation hc (by simp)) (by simp)
    simp only [List.map_nil, List.append_nil] at n1
    refine ⟨_, 1, ⟨⟨_, ps1, f, _, rfl⟩, fun d km' hd => .other hq (by simp) hp (by rw [hf]; exact n1) hd⟩, by omega, rfl, ?_⟩
    subst hl
    refine ⟨{ h.board with held := sl1 }, q2.trans h.config, ⟨_, q1, ?_⟩, h.timers, h.clock⟩
    show List.map _ (if _ then _ else _) = List.map some (if _ then _ else _)
    rw [hleq]
    split
    · rw [List.map_append, hx2, List.map_append]
      simp [hx]
    · exact hx2

/-- A timer that is due. -/
theorem MRel.fire {km : CKM} {s s' : Macro.State} {x : Timer} (h : MRel K A count mode km s is) (hA : A.instructions.length ≤ 65535)
    (hp : km.pend = none) (hq : km.sched.pending = [some (timerEvent x)]) (ht : s.clock + A.duration < u32Size)
    (hn : (s.board.held.filterMap Slot.index).Nodup) (hl : s.fire S A.duration x = some s') :
    ∃ km1 k, MHandles ⟨system K, refs, S⟩ k km km1 ∧ k ≤ 2 ∧ km1.sched.pending = [] ∧ MRel K A count mode km1 s' is := by
  cases x with
  | up ko =>
    obtain ⟨km1, a1, a2, a3⟩ := h.board.vrelease (refs := refs) (S := S) hp hq (by simp)
    simp only [Macro.State.fire, Option.some.injEq] at hl
    subst hl
    exact ⟨km1, 1, a1.toM, by omega, a2, h.frame a1.1 a3⟩
  | next i => exact h.next hA hp hq ht hl
  | done i =>
    simp only [Macro.State.fire, Option.some.injEq] at hl
    subst hl
    -- a held macro key asks for its empty macro
    have hc : km.ctx.handleEvent (timerEvent (.done i)) = .ok (km.ctx, []) := rfl
    have hf : ∃ f, ({ km with sched := { km.sched with pending := [] } } : CKM).fire (timerEvent (.done i)) =
      { km with fired := f, sched := { km.sched with pending := [] } } := ⟨_, rfl⟩
    obtain ⟨f, hf⟩ := hf
    obtain ⟨e0, he0, hn1⟩ := Slots.notifyAll (refs := refs) (S := S) (km := { km with fired := f, sched := { km.sched with pending := [] } })
      h.board.held h.board.nodup hc
    obtain ⟨evs, hevs⟩ : ∃ evs : List (Event Ev), s.board.held.flatMap (slotAnswer e0 (timerEvent (.done i))) = evs.map SchEv.imm ∧
        (evs = [] ∨ evs = [.key i (.automation (.enqueue e0))]) := by
      have hk : ∀ x : Slot, slotAnswer e0 (timerEvent (.done i)) x = [] ∨ (x.index = some i ∧
          slotAnswer e0 (timerEvent (.done i)) x = [SchEv.imm (.key i (.automation (.enqueue e0)))]) := by
        intro x
        cases x with
        | virt ko => exact .inl rfl
        | key j a u =>
          cases a with
          | cell c => exact .inl (answer_other (i := j) (c := c) (ev := timerEvent (.done i)) (by simp [timerEvent]))
          | sticky m => cases u <;> exact .inl rfl
          | capsWord => exact .inl rfl
          | string kos =>
            by_cases hji : j = i
            · subst hji
              refine .inr ⟨rfl, ?_⟩
              simp [slotAnswer, timerEvent]
            · refine .inl ?_
              simp [slotAnswer, timerEvent, hji]
      generalize s.board.held = l at hn
      induction l with
      | nil => exact ⟨[], rfl, .inl rfl⟩
      | cons x l ih =>
        rcases hk x with hx | ⟨hi, hx⟩
        · have hn' : (l.filterMap Slot.index).Nodup := by
            rw [List.filterMap_cons] at hn
            split at hn
            · exact hn
            · exact (List.nodup_cons.1 hn).2
          obtain ⟨evs, e1, e2⟩ := ih hn'
          exact ⟨evs, by rw [List.flatMap_cons, hx, e1]; rfl, e2⟩
        · have hn' : i ∉ l.filterMap Slot.index := by
            rw [List.filterMap_cons, hi] at hn
            exact (List.nodup_cons.1 hn).1
          refine ⟨[_], ?_, .inr rfl⟩
          rw [List.flatMap_cons, hx]
          have : l.flatMap (slotAnswer e0 (timerEvent (.done i))) = [] := by
            rw [List.flatMap_eq_nil_iff]
            intro y hy
            rcases hk y with h | ⟨h, _⟩
            · exact h
            · exact absurd (List.mem_filterMap.2 ⟨y, hy, h⟩) hn'
          rw [this]
          rfl
    obtain ⟨he1, he2⟩ := hevs
    obtain ⟨ps1, n1, sl1⟩ := hn1 ({ km.sched with pending := evs.map some })
      (by
        rw [he1, List.append_nil, scheduleAll_imms S _ evs (by rcases he2 with rfl | rfl <;> simp)]
        rfl)
    rw [slotNext_id (by simp [timerEvent])] at sl1
    have hv : VRel K A count mode km.ctx ps1 s.board is := { h.board with held := sl1 }
    have hfr : Frame km { km with fired := f, pressed := ps1, sched := { km.sched with pending := evs.map some } } := ⟨_, _, _, _, rfl, rfl, rfl⟩
    have hh : Handles ⟨system K, refs, S⟩ 1 km { km with fired := f, pressed := ps1, sched := { km.sched with pending := evs.map some } } :=
      ⟨hfr, fun d km' hd => .other hq (by simp [timerEvent]) hp (by rw [hf]; exact n1) hd⟩
    rcases he2 with rfl | rfl
    · exact ⟨_, 1, hh.toM, by omega, rfl, h.frame hfr hv⟩
    · obtain ⟨km2, b1, b2, b3⟩ := VRel.enqueueEmpty he0 (refs := refs) (S := S) (i := i) (q := [])
        (km := { km with fired := f, pressed := ps1, sched := { km.sched with pending := [some (.key i (.automation (.enqueue e0)))] } })
        hv hp rfl (by simp)
      exact ⟨km2, 2, (hh.trans b1).toM, by omega, b2, h.frame (hfr.trans b1.1) b3⟩

end Verif.Comp
