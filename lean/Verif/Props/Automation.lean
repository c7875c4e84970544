import Verif.Composite
import Verif.Example
import Verif.StdSearch
import Verif.Lemmas.CtxInv

/-!
# C34, C35 and C36: macros
-/

namespace Verif.Automation

/-! ## Specification -/

/-- The execution queue holds exactly the requests `xs`, in order: they fill the first places of the
array of 8, and the other places are empty. -/
def Holds (c : Ctx) (xs : List Execution) : Prop :=
  c.queue = xs ++ List.replicate (8 - xs.length) Execution.empty ∧ xs.length ≤ 8 ∧ ∀ x ∈ xs, 0 < x.length

/-- The numbers of the instructions of some requests, in order. -/
def flat (xs : List Execution) : List Nat := xs.flatMap fun e => List.range' e.start e.length

/-- The virtual key events an instruction stands for. -/
def effect (c : Config) : Instruction → List (Schedule × InputEvent)
  | .noOp => []
  | .press ko => [(.immediate, .vpress ko)]
  | .release ko => [(.immediate, .vrelease ko)]
  | .tap ko => [(.immediate, .vpress ko), (.after c.duration, .vrelease ko)]
  | .wait _ => []

/-- The virtual key events of some instructions, given by number. -/
def effects (c : Config) (is : List Nat) : List (Schedule × InputEvent) := (is.filterMap (c.instructions[·]?)).flatMap (effect c)

/-- The virtual key events among emitted events. -/
def virtuals : KeyEvents Ev → List (Schedule × InputEvent)
  | [] => []
  | ⟨s, .input e⟩ :: es => (s, e) :: virtuals es
  | _ :: es => virtuals es

/-- The number of "next instruction" events among emitted events. -/
def tokens (out : KeyEvents Ev) : Nat := out.countP fun e => match e.event with | .key _ .nextInstruction => true | _ => false

/-- The number of "execution finished" events among emitted events. -/
def finished (out : KeyEvents Ev) : Nat := out.countP fun e => match e.event with | .key _ .executionFinished => true | _ => false

/-- The request made by an event. -/
def request : Event Ev → Option Execution
  | .key _ (.enqueue e) => if e.length = 0 then none else some e
  | _ => none

/-- The context after some events, and all it emitted. -/
def feed (c : Ctx) : List (Event Ev) → Res (Ctx × KeyEvents Ev)
  | [] => .ok (c, [])
  | e :: es => do
    let (c, out) ← c.handleEvent e
    let (c, rest) ← feed c es
    pure (c, out ++ rest)

/-- The requests accepted: those that find fewer than 8 requests queued. -/
def accepted (c : Ctx) : List (Event Ev) → List Execution
  | [] => []
  | e :: es =>
    (if (c.queue.countP fun x => decide (0 < x.length)) < 8 then (request e).toList else []) ++
      match c.handleEvent e with
      | .ok (c, _) => accepted c es
      | _ => []

/-! ## Lemmas -/

theorem Holds.count {c : Ctx} {xs : List Execution} (h : Holds c xs) : (c.queue.countP fun x => decide (0 < x.length)) = xs.length := by
  obtain ⟨h1, _, h3⟩ := h
  rw [h1, List.countP_append, List.countP_eq_length.2 (by simpa using h3), List.countP_eq_zero.2]
  · omega
  · intro x hx
    simp only [List.mem_replicate] at hx
    simp [hx.2, Execution.empty]

theorem putFirstEmpty_spec (e : Execution) (xs : List Execution) (hx : ∀ x ∈ xs, 0 < x.length) (k : Nat) :
    putFirstEmpty e (xs ++ List.replicate (k + 1) Execution.empty) = xs ++ e :: List.replicate k Execution.empty := by
  induction xs with
  | nil => simp [putFirstEmpty, List.replicate_succ, Execution.isEmpty, Execution.empty]
  | cons x xs ih =>
    have := hx x List.mem_cons_self
    have hE : x.isEmpty = false := by simp [Execution.isEmpty]; omega
    simp only [List.cons_append, putFirstEmpty, hE, Bool.false_eq_true, if_false]
    rw [ih (fun y hy => hx y (List.mem_cons_of_mem _ hy))]

theorem putFirstEmpty_full (e : Execution) (xs : List Execution) (hx : ∀ x ∈ xs, 0 < x.length) : putFirstEmpty e xs = xs := by
  induction xs with
  | nil => rfl
  | cons x xs ih =>
    have := hx x List.mem_cons_self
    have hE : x.isEmpty = false := by simp [Execution.isEmpty]; omega
    simp only [putFirstEmpty, hE, Bool.false_eq_true, if_false]
    rw [ih (fun y hy => hx y (List.mem_cons_of_mem _ hy))]

theorem Holds.enqueue {c : Ctx} {xs : List Execution} (h : Holds c xs) (e : Execution) (he : 0 < e.length) :
    Holds (c.enqueue e) (if xs.length < 8 then xs ++ [e] else xs) ∧ (c.enqueue e).config = c.config := by
  obtain ⟨h1, h2, h3⟩ := h
  have hne : e.isEmpty = false := by simp [Execution.isEmpty]; omega
  refine ⟨?_, by unfold Ctx.enqueue; rw [hne]; rfl⟩
  unfold Holds Ctx.enqueue
  rw [hne]
  simp only [Bool.false_eq_true, if_false]
  by_cases hl : xs.length < 8
  · rw [if_pos hl, h1, show 8 - xs.length = (8 - xs.length - 1) + 1 by omega, putFirstEmpty_spec e xs h3]
    refine ⟨?_, by simp; omega, ?_⟩
    · simp only [List.length_append, List.length_cons, List.length_nil, List.append_assoc, List.cons_append, List.nil_append]
      congr 3
    · intro x hx
      rcases List.mem_append.1 hx with hx | hx
      · exact h3 x hx
      · simp only [List.mem_singleton] at hx; subst hx; exact he
  · rw [if_neg hl, h1, show 8 - xs.length = 0 by omega]
    simp only [List.replicate_zero, List.append_nil]
    rw [putFirstEmpty_full e xs h3]
    refine ⟨by simp, h2, h3⟩

theorem virtuals_append (a b : KeyEvents Ev) : virtuals (a ++ b) = virtuals a ++ virtuals b := by
  induction a with
  | nil => rfl
  | cons x a ih =>
    rcases x with ⟨s, _ | _ | _⟩
    · simp only [List.cons_append, virtuals, ih]
    · simp only [List.cons_append, virtuals, ih]
    · simp only [List.cons_append, virtuals, ih]

theorem flat_cons (x : Execution) (xs : List Execution) : flat (x :: xs) = List.range' x.start x.length ++ flat xs := by
  simp [flat]

theorem effects_append (c : Config) (a b : List Nat) : effects c (a ++ b) = effects c a ++ effects c b := by
  simp [effects, List.filterMap_append]

theorem keyEventsFor_spec {c : Config} {idx : Nat} {e : Execution} {es : KeyEvents Ev} (h : keyEventsFor c idx e = .ok es) :
    virtuals es = effects c [e.start] ∧ es.length ≤ 3 ∧
      tokens es = (if e.length > 1 then 1 else 0) ∧ finished es = (if e.length > 1 then 0 else 1) := by
  unfold keyEventsFor at h
  simp only [Res.bind_eq_ok, Res.pure_eq, Res.ok.injEq] at h
  obtain ⟨inst, h1, rfl⟩ := h
  rw [Res.index_eq_ok] at h1
  have he : effects c [e.start] = effect c inst := by simp [effects, h1]
  rw [he]
  by_cases hl : e.length > 1
  · simp only [hl, if_true]
    cases inst <;> simp [virtuals, effect, tokens, finished, SchEv.imm, SchEv.after]
  · simp only [hl, if_false]
    cases inst <;> simp [virtuals, effect, tokens, finished, SchEv.imm, SchEv.after]

/-- Executing the head of the queue takes exactly its first instruction. -/
theorem executeHead_spec {c c' : Ctx} {xs : List Execution} {x : Execution} (h : Holds c (x :: xs)) {idx : Nat} {out : KeyEvents Ev}
    (he : c.executeHead idx = .ok (c', out)) :
    c'.config = c.config ∧ (∃ xs', Holds c' xs' ∧ flat (x :: xs) = x.start :: flat xs' ∧
      virtuals out = effects c.config [x.start] ∧
      tokens out = (if xs' = [] then 0 else 1) ∧ finished out + xs'.length = xs.length + 1) ∧ out.length ≤ 4 := by
  obtain ⟨h1, h2, h3⟩ := h
  have hx := h3 x List.mem_cons_self
  have h3' : ∀ y ∈ xs, 0 < y.length := fun y hy => h3 y (List.mem_cons_of_mem _ hy)
  simp only [List.length_cons] at h2
  unfold Ctx.executeHead at he
  simp only [Res.bind_eq_ok] at he
  obtain ⟨hd, i1, es, i2, hd', i3, he⟩ := he
  rw [Res.index_eq_ok, h1] at i1
  simp only [List.cons_append, List.getElem?_cons_zero, Option.some.injEq] at i1
  subst i1
  obtain ⟨k1, k2, k3, k4⟩ := keyEventsFor_spec i2
  unfold Execution.incr at i3
  rw [if_pos hx] at i3
  split at i3
  · simp only [Res.ok.injEq] at i3
    subst i3
    have hfl : flat (x :: xs) = x.start :: (List.range' (x.start + 1) (x.length - 1) ++ flat xs) := by
      rw [flat_cons, show x.length = (x.length - 1) + 1 by omega, List.range'_succ]
      simp
    have htail : c.queue.tail = xs ++ List.replicate (8 - (xs.length + 1)) Execution.empty := by
      rw [h1]; simp
    by_cases hlast : x.length = 1
    · have hemp : (⟨x.start + 1, x.length - 1⟩ : Execution).isEmpty = true := by simp [Execution.isEmpty]; omega
      rw [hemp] at he
      simp only [if_true, Res.bind_eq_ok] at he
      obtain ⟨nx, j1, he⟩ := he
      have hq : c.queue.tail ++ [Execution.empty] = xs ++ List.replicate (8 - xs.length) Execution.empty := by
        rw [htail, List.append_assoc]
        congr 1
        rw [show 8 - xs.length = (8 - (xs.length + 1)) + 1 by omega, List.replicate_succ']
      have hH : Holds { c with queue := c.queue.tail ++ [Execution.empty] } xs := ⟨hq, by omega, h3'⟩
      rw [hq, Res.index_eq_ok] at j1
      have hk3 : tokens es = 0 := by rw [k3, if_neg (by omega)]
      have hk4 : finished es = 1 := by rw [k4, if_neg (by omega)]
      have hfl' : flat (x :: xs) = x.start :: flat xs := by rw [hfl]; simp [hlast]
      cases hxs : xs with
      | nil =>
        subst hxs
        simp only [List.nil_append, List.length_nil, Nat.sub_zero] at j1
        simp only [List.getElem?_replicate, show (0 : Nat) < 8 by omega, if_true, Option.some.injEq] at j1
        subst j1
        simp only [Execution.isEmpty, Execution.empty, decide_true, if_true, Res.pure_eq, Res.ok.injEq, Prod.mk.injEq] at he
        obtain ⟨rfl, rfl⟩ := he
        exact ⟨rfl, ⟨[], hH, hfl', k1, by simpa using hk3, by simp [hk4]⟩, by omega⟩
      | cons y ys =>
        rw [hxs] at j1
        simp only [List.cons_append, List.getElem?_cons_zero, Option.some.injEq] at j1
        subst j1
        have hy : 0 < y.length := h3' y (by rw [hxs]; exact List.mem_cons_self)
        have hyE : y.isEmpty = false := by simp [Execution.isEmpty]; omega
        rw [hyE] at he
        simp only [Bool.false_eq_true, if_false, Res.bind_eq_ok, Res.pure_eq, Res.ok.injEq, Prod.mk.injEq] at he
        obtain ⟨es2, p1, rfl, rfl⟩ := he
        unfold KeyEvents.push at p1
        obtain ⟨_, rfl⟩ := pushCap_eq_ok.1 p1
        rw [← hxs]
        refine ⟨rfl, ⟨xs, hH, hfl', ?_, ?_, ?_⟩, by simp; omega⟩
        · rw [virtuals_append, k1]; simp [virtuals, SchEv.after]
        · rw [if_neg (by rw [hxs]; simp)]
          simp only [tokens, List.countP_append] at hk3 ⊢
          rw [hk3]; rfl
        · have : finished (es ++ [SchEv.after c.config.duration (.key idx .nextInstruction)]) = finished es := by
            simp only [finished, List.countP_append]; rfl
          rw [this, hk4]; omega
    · have hemp : (⟨x.start + 1, x.length - 1⟩ : Execution).isEmpty = false := by simp [Execution.isEmpty]; omega
      rw [hemp] at he
      simp only [Bool.false_eq_true, if_false, Res.pure_eq, Res.ok.injEq, Prod.mk.injEq] at he
      obtain ⟨rfl, rfl⟩ := he
      refine ⟨rfl, ⟨⟨x.start + 1, x.length - 1⟩ :: xs, ⟨?_, by simp; omega, ?_⟩, ?_, k1, ?_, ?_⟩, by omega⟩
      · rw [htail]; simp
      · intro y hy
        rcases List.mem_cons.1 hy with rfl | hy
        · simp; omega
        · exact h3' y hy
      · rw [hfl, flat_cons]
      · rw [k3, if_pos (by omega)]; simp
      · rw [k4, if_pos (by omega)]; simp
  · simp at i3

theorem executeHead_ok {c : Ctx} {xs : List Execution} {x : Execution} (h : Holds c (x :: xs)) (idx : Nat)
    (hr : x.start < c.config.instructions.length) (h16 : x.start < 65535) : ∃ c' out, c.executeHead idx = .ok (c', out) := by
  obtain ⟨h1, h2, h3⟩ := h
  have hx := h3 x List.mem_cons_self
  have i1 : Res.index c.queue 0 = .ok x := by rw [Res.index_eq_ok, h1]; simp
  have i2 : ∃ es, keyEventsFor c.config idx x = .ok es ∧ es.length ≤ 3 := by
    have : ∃ es, keyEventsFor c.config idx x = .ok es := by
      unfold keyEventsFor
      have : Res.index c.config.instructions x.start = .ok c.config.instructions[x.start] := by
        rw [Res.index_eq_ok, List.getElem?_eq_getElem]
      rw [this]
      exact ⟨_, rfl⟩
    obtain ⟨es, h⟩ := this
    exact ⟨es, h, (keyEventsFor_spec h).2.1⟩
  obtain ⟨es, i2, hlen⟩ := i2
  have i3 : x.incr = .ok ⟨x.start + 1, x.length - 1⟩ := by
    unfold Execution.incr
    rw [if_pos hx, if_pos (by omega)]
  unfold Ctx.executeHead
  simp only [i1, i2, i3, Res.ok_bind]
  split
  · have : ∃ y, Res.index (c.queue.tail ++ [Execution.empty]) 0 = .ok y := by
      cases hq : c.queue.tail with
      | nil => exact ⟨_, rfl⟩
      | cons y ys => exact ⟨y, rfl⟩
    obtain ⟨y, hy⟩ := this
    rw [hy]
    simp only [Res.ok_bind]
    split
    · exact ⟨_, _, rfl⟩
    · have : KeyEvents.push es (SchEv.after c.config.duration (.key idx .nextInstruction)) =
          .ok (es ++ [SchEv.after c.config.duration (.key idx .nextInstruction)]) := by
        unfold KeyEvents.push
        rw [pushCap_eq_ok]
        exact ⟨by unfold maxKeyEvents; omega, rfl⟩
      rw [this]
      exact ⟨_, _, rfl⟩
  · exact ⟨_, _, rfl⟩

/-- What one event does. -/
theorem handleEvent_spec {c c' : Ctx} {xs : List Execution} (h : Holds c xs) {e : Event Ev} {out : KeyEvents Ev}
    (he : c.handleEvent e = .ok (c', out)) :
    c'.config = c.config ∧ out.length ≤ 4 ∧ ∃ xs', Holds c' xs' ∧
      virtuals out ++ effects c.config (flat xs') =
        effects c.config (flat (xs ++ if xs.length < 8 then (request e).toList else [])) ∧
      finished out + xs'.length = (xs ++ if xs.length < 8 then (request e).toList else []).length ∧
      (∀ T, T = (if xs = [] then 0 else 1) →
        (if xs' = [] then 0 else 1) = T + tokens out - (match e with | .key _ .nextInstruction => if xs = [] then 0 else 1 | _ => 0)) := by
  have nothing : c' = c → out = [] → (request e = none) → (∀ i, e ≠ .key i .nextInstruction ∨ xs = []) →
      c'.config = c.config ∧ out.length ≤ 4 ∧ ∃ xs', Holds c' xs' ∧
      virtuals out ++ effects c.config (flat xs') =
        effects c.config (flat (xs ++ if xs.length < 8 then (request e).toList else [])) ∧
      finished out + xs'.length = (xs ++ if xs.length < 8 then (request e).toList else []).length ∧
      (∀ T, T = (if xs = [] then 0 else 1) →
        (if xs' = [] then 0 else 1) = T + tokens out - (match e with | .key _ .nextInstruction => if xs = [] then 0 else 1 | _ => 0)) := by
    rintro rfl rfl hr hn
    refine ⟨rfl, by simp, xs, h, by simp [hr, virtuals], by simp [hr, finished], ?_⟩
    rintro T rfl
    rcases e with _ | ⟨i, (_ | _ | _)⟩ | _
    · simp [tokens]
    · simp [tokens]
    · rcases hn i with hn | hn
      · exact absurd rfl hn
      · simp [tokens, hn]
    · simp [tokens]
    · simp [tokens]
  rcases e with e | ⟨idx, (e | _ | _)⟩ | e
  · simp only [Ctx.handleEvent, Res.ok.injEq, Prod.mk.injEq] at he
    exact nothing he.1.symm he.2.symm rfl (by simp)
  · by_cases hz : e.length = 0
    · have hz' : e.isEmpty = true := by simp [Execution.isEmpty, hz]
      simp only [Ctx.handleEvent, hz', if_true, Res.ok.injEq, Prod.mk.injEq] at he
      exact nothing he.1.symm he.2.symm (by simp [request, hz]) (by simp)
    · have hz' : e.isEmpty = false := by simp [Execution.isEmpty, hz]
      have hreq : request (.key idx (.enqueue e)) = some e := by simp [request, hz]
      simp only [Ctx.handleEvent, hz', Bool.false_eq_true, if_false, Res.bind_eq_ok] at he
      obtain ⟨hd, i1, he⟩ := he
      obtain ⟨hE, hcfg⟩ := h.enqueue e (by omega)
      rw [Res.index_eq_ok] at i1
      rw [hreq]
      simp only [Option.toList_some]
      cases hxs : xs with
      | nil =>
        subst hxs
        rw [h.1] at i1
        simp only [List.nil_append, List.length_nil, Nat.sub_zero, List.getElem?_replicate, show (0 : Nat) < 8 by omega, if_true,
          Option.some.injEq] at i1
        subst i1
        have he0 : Execution.empty.isEmpty = true := rfl
        rw [he0] at he
        simp only [if_true] at he
        simp only [List.length_nil, show (0 : Nat) < 8 by omega, if_true, List.nil_append] at hE ⊢
        obtain ⟨k1, ⟨xs', k2, k3, k4, k5, k6⟩, k7⟩ := executeHead_spec hE he
        refine ⟨k1.trans hcfg, k7, xs', k2, ?_, by rw [k6]; rfl, ?_⟩
        · rw [k3, k4, hcfg]
          rw [← effects_append]; rfl
        · rintro T rfl
          rw [k5]; simp
      | cons x xs0 =>
        rw [h.1, hxs] at i1
        simp only [List.cons_append, List.getElem?_cons_zero, Option.some.injEq] at i1
        subst i1
        have hx := h.2.2 x (by rw [hxs]; exact List.mem_cons_self)
        have hxE : x.isEmpty = false := by simp [Execution.isEmpty]; omega
        rw [hxE] at he
        simp only [Bool.false_eq_true, if_false, Res.pure_eq, Res.ok.injEq, Prod.mk.injEq] at he
        obtain ⟨rfl, rfl⟩ := he
        rw [hxs] at hE
        refine ⟨hcfg, by simp, _, hE, ?_, ?_, ?_⟩
        · split <;> simp [virtuals]
        · split <;> simp [finished]
        · rintro T rfl
          split <;> simp [tokens]
  · simp only [Ctx.handleEvent, Res.bind_eq_ok] at he
    obtain ⟨hd, i1, he⟩ := he
    rw [Res.index_eq_ok] at i1
    cases hxs : xs with
    | nil =>
      subst hxs
      rw [h.1] at i1
      simp only [List.nil_append, List.length_nil, Nat.sub_zero, List.getElem?_replicate, show (0 : Nat) < 8 by omega, if_true,
        Option.some.injEq] at i1
      subst i1
      have he0 : Execution.empty.isEmpty = true := rfl
      rw [he0] at he
      simp only [if_true, Res.pure_eq, Res.ok.injEq, Prod.mk.injEq] at he
      exact nothing he.1.symm he.2.symm rfl (fun _ => Or.inr rfl)
    | cons x xs0 =>
      rw [h.1, hxs] at i1
      simp only [List.cons_append, List.getElem?_cons_zero, Option.some.injEq] at i1
      subst i1
      have hx := h.2.2 x (by rw [hxs]; exact List.mem_cons_self)
      have hxE : x.isEmpty = false := by simp [Execution.isEmpty]; omega
      rw [hxE] at he
      simp only [Bool.false_eq_true, if_false] at he
      rw [hxs] at h
      obtain ⟨k1, ⟨xs', k2, k3, k4, k5, k6⟩, k7⟩ := executeHead_spec h he
      refine ⟨k1, k7, xs', k2, ?_, ?_, ?_⟩
      · have : (if (x :: xs0).length < 8 then (request (.key idx .nextInstruction)).toList else []) = [] := by simp [request]
        rw [this, List.append_nil, k3, k4, ← effects_append]; rfl
      · have : (if (x :: xs0).length < 8 then (request (.key idx .nextInstruction)).toList else []) = [] := by simp [request]
        rw [this, List.append_nil, k6]; rfl
      · rintro T rfl
        rw [k5]; simp
  · simp only [Ctx.handleEvent, Res.ok.injEq, Prod.mk.injEq] at he
    exact nothing he.1.symm he.2.symm rfl (by simp)
  · simp only [Ctx.handleEvent, Res.ok.injEq, Prod.mk.injEq] at he
    exact nothing he.1.symm he.2.symm rfl (by simp)

/-! ## C34 -/

/-- C34: whatever events come, in whatever order: the virtual key events emitted so far, followed by those
of the instructions still queued, are exactly those of the requests accepted, each request as a whole and
in the order accepted. So every instruction runs once, in order, and requests do not interleave. Each
finished request is announced once. -/
theorem C34_order (c : Ctx) (xs : List Execution) (h : Holds c xs) (evs : List (Event Ev)) {c' : Ctx} {out : KeyEvents Ev}
    (hf : feed c evs = .ok (c', out)) :
    ∃ xs', Holds c' xs' ∧
      virtuals out ++ effects c.config (flat xs') = effects c.config (flat (xs ++ accepted c evs)) ∧
      finished out + xs'.length = xs.length + (accepted c evs).length := by
  induction evs generalizing c xs out with
  | nil =>
    simp only [feed, Res.ok.injEq, Prod.mk.injEq] at hf
    obtain ⟨rfl, rfl⟩ := hf
    exact ⟨xs, h, by simp [virtuals, accepted], by simp [finished, accepted]⟩
  | cons e es ih =>
    simp only [feed, Res.bind_eq_ok, Res.pure_eq, Res.ok.injEq, Prod.mk.injEq] at hf
    obtain ⟨⟨c1, o1⟩, h1, ⟨c2, o2⟩, h2, rfl, rfl⟩ := hf
    obtain ⟨k1, _, xs1, k2, k3, k4, _⟩ := handleEvent_spec h h1
    obtain ⟨xs2, m1, m2, m3⟩ := ih c1 xs1 k2 h2
    rw [k1] at m2
    have hacc : accepted c (e :: es) = (if xs.length < 8 then (request e).toList else []) ++ accepted c1 es := by
      simp only [accepted, h.count, h1]
    refine ⟨xs2, m1, ?_, ?_⟩
    · rw [virtuals_append, List.append_assoc, m2, hacc]
      have : flat (xs1 ++ accepted c1 es) = flat xs1 ++ flat (accepted c1 es) := by simp [flat]
      rw [this, effects_append, ← List.append_assoc, k3, ← effects_append, ← List.append_assoc]
      congr 1
      simp [flat]
    · have hfin : finished (o1 ++ o2) = finished o1 + finished o2 := by simp [finished]
      rw [hfin, hacc]
      simp only [List.length_append] at k4 ⊢
      omega

/-- C34: the macros keep running: when requests are queued, exactly one "next instruction" event is under
way, provided every one emitted is delivered once; when none is queued, none is. `T` counts the events
under way. -/
theorem C34_one_token {c c' : Ctx} {xs : List Execution} (h : Holds c xs) {e : Event Ev} {out : KeyEvents Ev}
    (he : c.handleEvent e = .ok (c', out)) (hin : ∀ i, e = .key i .nextInstruction → xs ≠ []) :
    ∃ xs', Holds c' xs' ∧ ∀ T, T = (if xs = [] then 0 else 1) →
      (if xs' = [] then 0 else 1) = T + tokens out - (match e with | .key _ .nextInstruction => 1 | _ => 0) := by
  obtain ⟨_, _, xs', h1, _, _, h2⟩ := handleEvent_spec h he
  refine ⟨xs', h1, ?_⟩
  intro T hT
  rw [h2 T hT]
  rcases e with _ | ⟨i, (_ | _ | _)⟩ | _
  · rfl
  · rfl
  · simp only; rw [if_neg (hin i rfl)]
  · rfl
  · rfl

/-- A request whose instructions exist. -/
def Within (c : Config) (e : Execution) : Prop := e.start + e.length ≤ c.instructions.length

/-- C34: no event makes the context panic, if the requests are within the instruction table (of at most
65535 instructions). -/
theorem C34_total {c : Ctx} {xs : List Execution} (h : Holds c xs) (hi : c.config.instructions.length ≤ 65535)
    (hx : ∀ x ∈ xs, Within c.config x) (e : Event Ev) (he : ∀ x, request e = some x → Within c.config x) :
    ∃ c' out, c.handleEvent e = .ok (c', out) := by
  rcases e with e | ⟨idx, (e | _ | _)⟩ | e
  · exact ⟨c, [], rfl⟩
  · by_cases hz : e.length = 0
    · exact ⟨c, [], by simp [Ctx.handleEvent, Execution.isEmpty, hz]⟩
    · have hz' : e.isEmpty = false := by simp [Execution.isEmpty, hz]
      have hw : Within c.config e := he e (by simp [request, hz])
      obtain ⟨hE, hcfg⟩ := h.enqueue e (by omega)
      cases hxs : xs with
      | nil =>
        subst hxs
        have i1 : Res.index c.queue 0 = .ok Execution.empty := by rw [Res.index_eq_ok, h.1]; simp
        have he0 : Execution.empty.isEmpty = true := rfl
        simp only [List.length_nil, show (0 : Nat) < 8 by omega, if_true, List.nil_append] at hE
        unfold Within at hw
        obtain ⟨c', out, h'⟩ := executeHead_ok hE idx (by rw [hcfg]; omega) (by omega)
        exact ⟨c', out, by simp only [Ctx.handleEvent, hz', Bool.false_eq_true, if_false, i1, Res.ok_bind, he0, if_true, h']⟩
      | cons x xs0 =>
        have i1 : Res.index c.queue 0 = .ok x := by rw [Res.index_eq_ok, h.1, hxs]; simp
        have hx0 := h.2.2 x (by rw [hxs]; exact List.mem_cons_self)
        have hxE : x.isEmpty = false := by simp [Execution.isEmpty]; omega
        exact ⟨c.enqueue e, [], by simp only [Ctx.handleEvent, hz', Bool.false_eq_true, if_false, i1, Res.ok_bind, hxE, Res.pure_eq]⟩
  · cases hxs : xs with
    | nil =>
      subst hxs
      have i1 : Res.index c.queue 0 = .ok Execution.empty := by rw [Res.index_eq_ok, h.1]; simp
      have he0 : Execution.empty.isEmpty = true := rfl
      exact ⟨c, [], by simp only [Ctx.handleEvent, i1, Res.ok_bind, he0, if_true, Res.pure_eq]⟩
    | cons x xs0 =>
      have i1 : Res.index c.queue 0 = .ok x := by rw [Res.index_eq_ok, h.1, hxs]; simp
      have hx0 := h.2.2 x (by rw [hxs]; exact List.mem_cons_self)
      have hxE : x.isEmpty = false := by simp [Execution.isEmpty]; omega
      have hw := hx x (by rw [hxs]; exact List.mem_cons_self)
      unfold Within at hw
      rw [hxs] at h
      obtain ⟨c', out, h'⟩ := executeHead_ok h idx (by omega) (by omega)
      exact ⟨c', out, by simp only [Ctx.handleEvent, i1, Res.ok_bind, hxE, Bool.false_eq_true, if_false, h']⟩
  · exact ⟨c, [], rfl⟩
  · exact ⟨c, [], rfl⟩

/-! ## C35 -/

/-- C35: a request is appended to the queue; an empty request, or one that finds 8 queued, is ignored and
disturbs nothing. -/
theorem C35_enqueue {c : Ctx} {xs : List Execution} (h : Holds c xs) (e : Execution) :
    Holds (c.enqueue e) (if 0 < e.length ∧ xs.length < 8 then xs ++ [e] else xs) := by
  by_cases he : 0 < e.length
  · have := (h.enqueue e he).1
    by_cases hl : xs.length < 8
    · rw [if_pos hl] at this; rw [if_pos ⟨he, hl⟩]; exact this
    · rw [if_neg hl] at this; rw [if_neg (fun hh => hl hh.2)]; exact this
  · have : e.isEmpty = true := by simp [Execution.isEmpty]; omega
    rw [if_neg (fun hh => he hh.1)]
    unfold Ctx.enqueue
    rw [if_pos this]
    exact h

/-- C35: in every state a keymap can reach, the macro queue is a gapless list of at most 8 requests. -/
theorem C35_reachable (K : Comp.Keys) (refs : List Comp.Ref) (S : Search) (config : Comp.Config)
    {km : KM Comp.Ref Comp.Ev Comp.Ctx Comp.PKS Comp.KS}
    (h : Reachable ⟨Comp.system K, refs, S⟩ (Comp.Ctx.fromConfig config) km) :
    ∃ xs, Holds km.ctx.automation xs := by
  refine Comp.automation_reachable K refs S (fun c => ∃ xs, Holds c xs) ?_ ?_ h
  · rintro c e c' es ⟨xs, hx⟩ he
    obtain ⟨_, _, xs', hx', _⟩ := handleEvent_spec hx he
    exact ⟨xs', hx'⟩
  · exact ⟨[], rfl, by simp, by simp⟩

/-! ## C57 -/

/-- How long an instruction takes: a wait as long as it says, the others the configured duration. -/
def pause (c : Config) : Instruction → Nat
  | .wait t => t
  | _ => c.duration

/-- The events of the macro itself among emitted events, with the time after which each comes. -/
def follow : KeyEvents Ev → List (Schedule × Nat × Ev)
  | [] => []
  | ⟨s, .key i e⟩ :: es => (s, i, e) :: follow es
  | _ :: es => follow es

theorem follow_append (a b : KeyEvents Ev) : follow (a ++ b) = follow a ++ follow b := by
  induction a with
  | nil => rfl
  | cons x xs ih =>
    obtain ⟨s, e⟩ := x
    cases e <;> simp [follow, ih]

theorem keyEventsFor_follow {c : Config} {idx : Nat} {x : Execution} {out : KeyEvents Ev} {inst : Instruction}
    (hi : c.instructions[x.start]? = some inst) (h : keyEventsFor c idx x = .ok out) :
    follow out = [(.after (pause c inst), idx, if 1 < x.length then .nextInstruction else .executionFinished)] := by
  unfold keyEventsFor at h
  rw [show Res.index c.instructions x.start = .ok inst from Res.index_eq_ok.2 hi] at h
  cases inst <;> cases h <;> rfl

theorem executeHead_follow {c c' : Ctx} {xs : List Execution} {x : Execution} (h : Holds c (x :: xs)) {idx : Nat}
    {out : KeyEvents Ev} {inst : Instruction} (hi : c.config.instructions[x.start]? = some inst)
    (he : c.executeHead idx = .ok (c', out)) :
    follow out = if 1 < x.length then [(.after (pause c.config inst), idx, .nextInstruction)]
      else (.after (pause c.config inst), idx, .executionFinished) ::
        if xs = [] then [] else [(.after c.config.duration, idx, .nextInstruction)] := by
  obtain ⟨h1, h2, h3⟩ := h
  have hx := h3 x List.mem_cons_self
  unfold Ctx.executeHead at he
  simp only [Res.bind_eq_ok] at he
  obtain ⟨hd, i1, es, i2, hd', i3, he⟩ := he
  rw [Res.index_eq_ok, h1] at i1
  simp only [List.cons_append, List.getElem?_cons_zero, Option.some.injEq] at i1
  subst i1
  have f := keyEventsFor_follow hi i2
  unfold Execution.incr at i3
  rw [if_pos hx] at i3
  split at i3
  · simp only [Res.ok.injEq] at i3
    subst i3
    by_cases hlast : 1 < x.length
    · rw [if_neg (by simp [Execution.isEmpty]; omega)] at he
      cases he
      rw [f, if_pos hlast, if_pos hlast]
    · rw [if_pos (by simp [Execution.isEmpty]; omega)] at he
      simp only [Res.bind_eq_ok] at he
      obtain ⟨nx, j1, he⟩ := he
      rw [if_neg hlast] at f ⊢
      rw [Res.index_eq_ok, h1] at j1
      cases xs with
      | nil =>
        simp [List.replicate] at j1
        subst j1
        cases he
        rw [f]; rfl
      | cons y ys =>
        have hy : 0 < y.length := h3 y (by simp)
        simp at j1
        subst j1
        rw [if_neg (by simp [Execution.isEmpty]; omega)] at he
        simp only [Res.bind_eq_ok, Res.pure_eq, Res.ok.injEq, Prod.mk.injEq] at he
        obtain ⟨es2, p1, rfl, rfl⟩ := he
        unfold KeyEvents.push at p1
        obtain ⟨_, rfl⟩ := pushCap_eq_ok.1 p1
        rw [follow_append, f]
        rfl
  · simp at i3

/-- C57, the pace: when an instruction of the macro at the head of the queue is run, the next instruction of
the same macro follows after the time the instruction takes (a wait: the time it says; all others: the
configured duration). After the last one the end of the macro is announced after that time. The next
queued macro, however, starts after the configured duration, even if the last instruction is a longer wait. -/
theorem C57_pace {c c' : Ctx} {x : Execution} {xs : List Execution} (h : Holds c (x :: xs)) {inst : Instruction}
    (hi : c.config.instructions[x.start]? = some inst) {i : Nat} {out : KeyEvents Ev}
    (he : c.handleEvent (.key i .nextInstruction) = .ok (c', out)) :
    follow out = if 1 < x.length then [(.after (pause c.config inst), i, .nextInstruction)]
      else (.after (pause c.config inst), i, .executionFinished) ::
        if xs = [] then [] else [(.after c.config.duration, i, .nextInstruction)] := by
  have hx := h.2.2 x List.mem_cons_self
  unfold Ctx.handleEvent at he
  simp only [Res.bind_eq_ok] at he
  obtain ⟨hd, i1, he⟩ := he
  rw [Res.index_eq_ok, h.1] at i1
  simp only [List.cons_append, List.getElem?_cons_zero, Option.some.injEq] at i1
  subst i1
  rw [if_neg (by simp [Execution.isEmpty]; omega)] at he
  exact executeHead_follow h hi he

/-- C57: a request that finds the queue empty runs its first instruction at once, and the pace is the same.
A request that finds others queued runs nothing yet. -/
theorem C57_start {c c' : Ctx} {xs : List Execution} (h : Holds c xs) {x : Execution} (hx : 0 < x.length)
    {inst : Instruction} (hi : c.config.instructions[x.start]? = some inst) {i : Nat} {out : KeyEvents Ev}
    (he : c.handleEvent (.key i (.enqueue x)) = .ok (c', out)) :
    if xs = [] then follow out = [(.after (pause c.config inst), i, if 1 < x.length then .nextInstruction else .executionFinished)] ∧
        virtuals out = effect c.config inst
      else out = [] := by
  have hE : x.isEmpty = false := by simp [Execution.isEmpty]; omega
  have hn := (h.enqueue x hx).1
  have hcfg := (h.enqueue x hx).2
  unfold Ctx.handleEvent at he
  simp only [hE, Bool.false_eq_true, if_false, Res.bind_eq_ok] at he
  obtain ⟨hd, i1, he⟩ := he
  rw [Res.index_eq_ok, h.1] at i1
  cases xs with
  | nil =>
    simp [List.replicate] at i1
    subst i1
    rw [if_pos (by rfl)] at he
    rw [if_pos (by simp)] at hn
    rw [if_pos rfl]
    refine ⟨?_, ?_⟩
    · rw [executeHead_follow hn (by rw [hcfg]; exact hi) he, hcfg]
      by_cases hl : 1 < x.length <;> simp [hl]
    · have := (executeHead_spec hn he).2.1
      obtain ⟨_, _, _, hv, _⟩ := this
      rw [hv, hcfg]
      simp [effects, hi]
  | cons y ys =>
    have hy : 0 < y.length := h.2.2 y (by simp)
    simp at i1
    subst i1
    rw [if_neg (by simp [Execution.isEmpty]; omega)] at he
    cases he
    rw [if_neg (by simp)]

/-- C57, what a macro key asks for. Pressing it asks for its press macro; if it has none, for the macro to
run while it is held, as soon as the key sees its own first event. Whenever one of its macros has finished
while it is held, it asks for that macro (again). Releasing it asks for its release macro. Nothing else
makes it ask for anything. -/
theorem C57_requests {keys : List Key} {i idx : Nat} {k : Key} (hk : keys[i]? = some k) :
    (∃ e, sysNewPressedKey keys idx i = .ok [SchEv.imm (.key idx e)] ∧
      (k.onPress.length ≠ 0 → e = .enqueue k.onPress) ∧
      (k.onPress.length = 0 → sysUpdateState keys i idx (.key idx e) = .ok [SchEv.imm (.key idx (.enqueue k.whilePressed))])) ∧
    sysUpdateState keys i idx (.key idx .executionFinished) = .ok [SchEv.imm (.key idx (.enqueue k.whilePressed))] ∧
    sysUpdateState keys i idx (.input (.release idx)) = .ok [SchEv.imm (.key idx (.enqueue k.onRelease))] ∧
    ∀ e, e ≠ .key idx .executionFinished → e ≠ .input (.release idx) → sysUpdateState keys i idx e = .ok [] := by
  have hk' : Res.index keys i = .ok k := Res.index_eq_ok.2 hk
  refine ⟨⟨if k.onPress.isEmpty then .executionFinished else .enqueue k.onPress,
    by simp only [sysNewPressedKey, hk', Res.ok_bind, Res.pure_eq], ?_, ?_⟩, ?_, ?_, ?_⟩
  · intro h; rw [if_neg (by simpa [Execution.isEmpty] using h)]
  · intro h
    rw [if_pos (by simpa [Execution.isEmpty] using h)]
    simp [sysUpdateState, hk']
  · simp [sysUpdateState, hk']
  · simp [sysUpdateState, hk']
  · intro e h1 h2
    rcases e with (_ | j | _ | _) | ⟨j, (_ | _ | _)⟩ | _ <;> simp only [sysUpdateState]
    · rw [if_neg (by rintro rfl; exact h2 rfl)]
    · rw [if_neg (by rintro rfl; exact h1 rfl)]

/-! ## Instances and counterexamples -/

/-- C34 and C35, hypotheses: an empty queue and one with two requests. -/
example : Holds (Ctx.fromConfig ⟨[.tap (KeyOutput.fromKeyCode 4)], 10⟩) [] ∧
    Holds ((Ctx.fromConfig ⟨[.tap (KeyOutput.fromKeyCode 4)], 10⟩).enqueue ⟨0, 1⟩ |>.enqueue ⟨3, 2⟩) [⟨0, 1⟩, ⟨3, 2⟩] := by
  refine ⟨⟨rfl, by simp, by simp⟩, ⟨rfl, by simp, ?_⟩⟩
  intro x hx
  simp only [List.mem_cons, List.not_mem_nil, or_false] at hx
  rcases hx with rfl | rfl <;> simp

namespace Demo
open Comp

/-- Keys: macros `20 20 21` and `22`; tap-hold keys with a macro and with a plain key as tap. -/
def K : Keys where
  automation := [⟨⟨0, 3⟩, ⟨0, 0⟩, ⟨0, 0⟩⟩, ⟨⟨3, 1⟩, ⟨0, 0⟩, ⟨0, 0⟩⟩]
  tapHold := [⟨.automation 0, .keyboard (.keyCode 0xE0)⟩, ⟨.keyboard (.keyCode 30), .keyboard (.keyCode 0xE1)⟩]

/-- Keys 0: A, 1: first macro, 2: second macro, 3: tap-hold of the first macro, 4: plain tap-hold. -/
def C : Cfg Ref Comp.Ev Comp.Ctx PKS KS :=
  ⟨system K, [.keyboard (.keyCode 4), .automation 0, .automation 1, .tapHold 0, .tapHold 1], Search.std⟩

/-- The configuration: instruction duration `d` and tap-hold timeout `t`. -/
def config (d t : Nat) : Comp.Config where
  automation := ⟨[.tap (KeyOutput.fromKeyCode 20), .tap (KeyOutput.fromKeyCode 20), .tap (KeyOutput.fromKeyCode 21),
    .tap (KeyOutput.fromKeyCode 22)], d⟩
  chorded := ⟨200, [], none, 0, 0⟩
  sticky := .onModifiedKeyRelease
  tapDance := ⟨200⟩
  tapHold := ⟨t, .ignore, none⟩
  layerCount := 0
  maxChords := 0

/-- The state after some calls. -/
def after (d t : Nat) (ops : List Op) : Res (KM Ref Comp.Ev Comp.Ctx PKS KS) := run C 9 (KM.new (Comp.Ctx.fromConfig (config d t))) ops

/-- The pressed outputs after some calls. -/
def out (d t : Nat) (ops : List Op) : Res (List KeyOutput) := after d t ops >>= fun km => km.pressedKeys C

/-- Some ticks. -/
def wait (k : Nat) : List Op := List.replicate k .tick

/-- A tap of a key. -/
def tap (i : Nat) : List Op := [.input (.press i), .tick, .input (.release i), .tick]

end Demo

/-- C36, end to end: tapping the macro key `20 20 21` presses and releases each key in turn. -/
example : (List.range 11).map (fun k => Demo.out 2 200 ([.input (.press 1)] ++ Demo.wait k)) =
    ([[20], [20], [], [20], [20], [], [21], [21], [], [], []] : List (List Byte)).map
      (fun l => .ok (l.map KeyOutput.fromKeyCode)) := by decide +kernel

/-- C34, full claim (every requested macro runs to completion), is false: a tap-hold key whose tap is a
macro, tapped again while its macro runs, cancels the running macro's next step. The macro never goes on;
no later macro ever starts: the macros stay queued, and nothing is scheduled that would run them. -/
theorem C34_stall_refuted :
    ((fun km => (km.ctx.automation.queue.take 4, km.sched.scheduled.length, km.sched.pending.length, km.inq)) <$>
      Demo.after 10 20 (Demo.tap 3 ++ Demo.wait 5 ++ Demo.tap 3 ++ Demo.wait 20 ++ Demo.tap 2 ++ Demo.wait 20)) =
      .ok ([⟨1, 2⟩, ⟨0, 3⟩, ⟨3, 1⟩, Execution.empty], 0, 0, []) := by decide +kernel

/-- C36, full claim (each key of the macro is pressed and released in turn, once), is false: with the
default durations, tapping a tap-hold key and four other keys while a macro runs leaves a key of the macro
pressed for good: 60 ms after the last physical release it is still reported. -/
theorem C36_stuck_refuted :
    Demo.out 10 200 ([.input (.press 1), .tick, .input (.release 1), .input (.press 4)] ++
      Demo.tap 0 ++ Demo.tap 0 ++ Demo.tap 0 ++ Demo.tap 0 ++ [.input (.release 4)] ++ Demo.wait 60) =
      .ok [KeyOutput.fromKeyCode 20] := by decide +kernel

/-- C36 is also false for a macro run alone: the macro `20 20 21`, tapped with a tap-hold key 8 ms after
its press, has its second `20` pressed before the first is released (the cancelled timeout of the tap-hold
key, due at the same time, changes the order of the other two events due then), so that the host sees
`20` once only. (Instruction duration 2 ms, timeout 10 ms.) -/
theorem C36_double_letter_refuted :
    (List.range 10).map (fun k => Demo.out 2 10 ([.input (.press 3)] ++ Demo.wait 8 ++ [.input (.release 3)] ++ Demo.wait k)) =
    ([[20], [20], [20], [20, 20], [20], [], [21], [21], [], []] : List (List Byte)).map
      (fun l => .ok (l.map KeyOutput.fromKeyCode)) := by decide +kernel

namespace WaitDemo
open Comp

/-- Keys: a macro typing `20`, waiting 30, typing `21`, and waiting 30; one typing `22`; one that only runs
while held: `23`; one with a release macro `24`. -/
def K : Keys where
  automation := [⟨⟨0, 4⟩, ⟨0, 0⟩, ⟨0, 0⟩⟩, ⟨⟨4, 1⟩, ⟨0, 0⟩, ⟨0, 0⟩⟩, ⟨⟨0, 0⟩, ⟨5, 1⟩, ⟨0, 0⟩⟩, ⟨⟨0, 0⟩, ⟨0, 0⟩, ⟨6, 1⟩⟩]

def C : Cfg Ref Comp.Ev Comp.Ctx PKS KS :=
  ⟨system K, [.automation 0, .automation 1, .automation 2, .automation 3], Search.std⟩

def config : Comp.Config :=
  { Demo.config 2 200 with automation := ⟨[.tap (KeyOutput.fromKeyCode 20), .wait 30, .tap (KeyOutput.fromKeyCode 21), .wait 30,
    .tap (KeyOutput.fromKeyCode 22), .tap (KeyOutput.fromKeyCode 23), .tap (KeyOutput.fromKeyCode 24)], 2⟩ }

/-- The pressed outputs after some calls. -/
def out (ops : List Op) : Res (List KeyOutput) :=
  run C 9 (KM.new (Comp.Ctx.fromConfig config)) ops >>= fun km => km.pressedKeys C

end WaitDemo

/-- C57, end to end: the wait of 30 between `20` and `21` is kept. -/
example : [2, 32, 33, 34, 35].map (fun k => WaitDemo.out ([.input (.press 0)] ++ Demo.wait k)) =
    ([[], [], [21], [21], []] : List (List Byte)).map (fun l => .ok (l.map KeyOutput.fromKeyCode)) := by decide +kernel

/-- C57, end to end: but a macro queued behind it starts soon after the final wait of 30 has begun. -/
example : [33, 35, 37, 38, 40].map (fun k => WaitDemo.out ([.input (.press 0), .tick, .input (.press 1)] ++ Demo.wait (k - 1))) =
    ([[21], [], [], [22], []] : List (List Byte)).map (fun l => .ok (l.map KeyOutput.fromKeyCode)) := by decide +kernel

/-- C57, end to end: the macro of a held key is repeated until the release. -/
example : [0, 2, 3, 5, 6, 8, 12].map (fun k => WaitDemo.out ([.input (.press 2)] ++ Demo.wait (min k 7) ++
      (if k > 7 then [.input (.release 2)] else []) ++ Demo.wait (k - 7))) =
    ([[23], [], [23], [], [23], [], []] : List (List Byte)).map (fun l => .ok (l.map KeyOutput.fromKeyCode)) := by decide +kernel

/-- C57, end to end: the release macro. -/
example : [0, 1, 2].map (fun k => WaitDemo.out ([.input (.press 3), .tick, .input (.release 3)] ++ Demo.wait k)) =
    ([[24], [24], []] : List (List Byte)).map (fun l => .ok (l.map KeyOutput.fromKeyCode)) := by decide +kernel

end Verif.Automation
