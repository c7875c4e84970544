import Verif.Spec.Down
import Verif.Props.Order

/-!
# What the keymap still has to do about each key

`willBe i` is whether key `i` will be down once the events that wait have been acted upon.
-/

namespace Verif.Down

open Spec

section
variable {R Ev Ctx PKS KS : Type} {C : Cfg R Ev Ctx PKS KS}

/-- Whether key `i` is down after the events. -/
def downFrom (i : Nat) (d : Bool) (es : List InputEvent) : Bool := es.foldl (evDown i) d

/-- The key counts as down: it is among the pressed ones, or is the undecided one. -/
def heldNow (i : Nat) (km : KM R Ev Ctx PKS KS) : Bool :=
  decide (i ∈ indices km.pressed) || decide (km.pend.map (·.idx) = some i)

/-- The events buffered for the undecided key. -/
def pendIn (km : KM R Ev Ctx PKS KS) : List InputEvent :=
  match km.pend with
  | some p => p.queued.filterMap inputOf?
  | none => []

/-- Whether key `i` will be down once the waiting events have been acted upon. -/
def willBe (i : Nat) (km : KM R Ev Ctx PKS KS) : Bool := downFrom i (heldNow i km) (pendIn km ++ km.inq)

theorem downFrom_append (i : Nat) (d : Bool) (a b : List InputEvent) :
    downFrom i d (a ++ b) = downFrom i (downFrom i d a) b := by simp [downFrom]

theorem downFrom_cons (i : Nat) (d : Bool) (e : InputEvent) (b : List InputEvent) :
    downFrom i d (e :: b) = downFrom i (evDown i d e) b := rfl

/-- What an event, of any kind, says about key `i`. -/
def evDownE (i : Nat) (d : Bool) (e : Event Ev) : Bool :=
  match inputOf? e with
  | some ie => evDown i d ie
  | none => d

theorem downFrom_filterMap (i : Nat) (d : Bool) (q : List (Event Ev)) :
    downFrom i d (q.filterMap inputOf?) = q.foldl (evDownE i) d := by
  induction q generalizing d with
  | nil => rfl
  | cons e q ih =>
    rw [List.foldl_cons, ← ih]
    unfold evDownE
    cases h : inputOf? e <;> simp [h, downFrom]

/-- Events of key `idx` say nothing about another key; other events say nothing about key `idx`. -/
theorem evDownE_own {i idx : Nat} (h : i ≠ idx) (d : Bool) {e : Event Ev} (he : isOwn idx e = true) : evDownE i d e = d := by
  rcases e with (j | j | _ | _) | ⟨j, _⟩ | _ <;> simp [isOwn] at he <;> simp [evDownE, inputOf?, evDown, he, Ne.symm h]

theorem evDownE_other {idx : Nat} (d : Bool) {e : Event Ev} (he : isOwn idx e = false) : evDownE idx d e = d := by
  rcases e with (j | j | _ | _) | ⟨j, _⟩ | _ <;> simp [isOwn] at he <;> simp [evDownE, inputOf?, evDown, he]

theorem fold_others {i idx : Nat} (h : i ≠ idx) (d : Bool) (q : List (Event Ev)) :
    (q.filter (fun e => !isOwn idx e)).foldl (evDownE i) d = q.foldl (evDownE i) d := by
  induction q generalizing d with
  | nil => rfl
  | cons e q ih =>
    cases he : isOwn idx e with
    | true => rw [List.filter_cons_of_neg (by simp [he]), List.foldl_cons, evDownE_own h d he, ih]
    | false => rw [List.filter_cons_of_pos (by simp [he]), List.foldl_cons, List.foldl_cons, ih]

theorem fold_id {i : Nat} {q : List (Event Ev)} (h : ∀ e ∈ q, ∀ d, evDownE i d e = d) (d : Bool) :
    q.foldl (evDownE i) d = d := by
  induction q generalizing d with
  | nil => rfl
  | cons e q ih =>
    rw [List.foldl_cons, h e List.mem_cons_self, ih (fun e he => h e (List.mem_cons_of_mem _ he))]

/-- Whether the key is down is settled by its last event. -/
theorem fold_last {idx : Nat} (q : List (Event Ev)) (hin : ∀ e ∈ q, ∃ ie, e = .input ie) :
    ((q.filter (isOwn idx)).getLast?.toList).foldl (evDownE idx) true = q.foldl (evDownE idx) true := by
  have h1 : q.foldl (evDownE idx) true = (q.filter (isOwn idx)).foldl (evDownE idx) true := by
    generalize true = d
    induction q generalizing d with
    | nil => rfl
    | cons e q ih =>
      have ih := ih (fun e he => hin e (List.mem_cons_of_mem _ he))
      cases he : isOwn idx e with
      | true => rw [List.filter_cons_of_pos he, List.foldl_cons, List.foldl_cons, ih]
      | false => rw [List.filter_cons_of_neg (by simp [he]), List.foldl_cons, evDownE_other d he, ih]
  rw [h1]
  have hown : ∀ e ∈ q.filter (isOwn idx), ∀ d d', evDownE idx d e = evDownE idx d' e := by
    intro e he d d'
    rw [List.mem_filter] at he
    obtain ⟨ie, rfl⟩ := hin e he.1
    have he := he.2
    rcases ie with j | j | _ | _ <;> simp [isOwn] at he <;> simp [evDownE, inputOf?, evDown, he]
  generalize q.filter (isOwn idx) = l at hown
  rcases List.eq_nil_or_concat l with rfl | ⟨l, e, rfl⟩
  · rfl
  · simp only [List.concat_eq_append, List.getLast?_append, List.getLast?_singleton, Option.some_or, Option.toList_some,
      List.foldl_cons, List.foldl_nil, List.foldl_append]
    exact hown e (by simp) _ _

/-- Re-queuing keeps, for each key, what the events say about it in the end. -/
theorem requeueList_down {i idx : Nat} {d : Bool} {q : List (Event Ev)} (hin : ∀ e ∈ q, ∃ ie, e = .input ie)
    (hd : i = idx → d = true) :
    downFrom i d ((requeueList idx q).filterMap inputOf?) = downFrom i d (q.filterMap inputOf?) := by
  rw [downFrom_filterMap, downFrom_filterMap]
  unfold requeueList
  rw [List.foldl_append]
  by_cases h : i = idx
  · obtain rfl := hd h
    subst h
    rw [fold_id (q := q.filter _), fold_last q hin]
    intro e he d
    rw [List.mem_filter] at he
    exact evDownE_other d (by simpa using he.2)
  · rw [fold_others h, fold_id]
    intro e he d
    refine evDownE_own h d ?_
    rw [Option.mem_toList] at he
    exact (List.mem_filter.1 (List.mem_of_mem_getLast? he)).2

theorem willBe_of {i : Nat} {a b : KM R Ev Ctx PKS KS} (hp : b.pend = a.pend) (hk : keys b.pressed = keys a.pressed)
    (hi : b.inq = a.inq) : willBe i b = willBe i a := by
  unfold willBe heldNow pendIn
  rw [hp, hi, indices_eq_keys, indices_eq_keys, hk]

end

/-! ## Keymaps whose undecided keys do not become undecided keys -/

section
open Comp
variable {K : Keys} {refs : List Ref} {S : Search} {ctx : Comp.Ctx}

/-- The keys the undecided key may become can be told at once. -/
def WaitOk (K : Keys) (km : KM Ref Ev Comp.Ctx PKS KS) : Prop :=
  ∀ p, km.pend = some p → ∀ c, Child K p.ref c → Decided K c

theorem WaitOk.of_none {km : KM Ref Ev Comp.Ctx PKS KS} (h : km.pend = none) : WaitOk K km := by
  intro p hp; rw [h] at hp; cases hp

theorem WaitOk.of_pend {a b : KM Ref Ev Comp.Ctx PKS KS} (h : WaitOk K a) (e : b.pend = a.pend) : WaitOk K b := by
  intro p hp; exact h p (e ▸ hp)

/-- An undecided key is resolved: it is pressed, and the buffered events are in front of the queue. -/
def Settles (p : Pending Ref Ev PKS) (a b : KM Ref Ev Comp.Ctx PKS KS) : Prop :=
  b.pend = none ∧ b.inq = (requeueList p.idx p.queued).filterMap inputOf? ++ a.inq ∧
    indices b.pressed = indices a.pressed ++ [p.idx]

theorem resolve_settles {he : Handler Ref Ev Comp.Ctx PKS KS} (hh : HandlerSteps (cfg K refs S) NonPhys he) {n : Nat}
    {a b : KM Ref Ev Comp.Ctx PKS KS} {p : Pending Ref Ev PKS} {ks : KS} (hq : QInv NonPhys a) (hp : a.pend = some p)
    (hf : FromSys (cfg K refs S) p.idx p.ref ks) (h : resolve (cfg K refs S) he n a p ks = .ok b) : Settles p a b := by
  have hE := emits_nonPhys K refs S
  obtain ⟨h1, h2⟩ := resolve_inq hE hh hq hp hf h
  refine ⟨h1, h2, ?_⟩
  unfold resolve at h
  simp only [Res.bind_eq_ok] at h
  obtain ⟨km1, h1, km2, h2, o, ho, h3⟩ := h
  have q1 := hq.micro hE (.resolve (Q := NonPhys) a p ks km1 hp hf h1)
  obtain ⟨_, _, rfl⟩ := resolveEnter_spec (hq.queued p hp) h1
  have s1 := drain_steps hE hh q1 h2
  have st : Steps (cfg K refs S) NonPhys
      { a with pend := none, pressed := a.pressed ++ [.key p.idx p.ref ks], sched := a.sched.cancel p.idx,
               inq := (requeueList p.idx p.queued).filterMap inputOf? ++ a.inq } b := by
    refine s1.trans ?_
    cases o with
    | none => simp only [Res.pure_eq, Res.ok.injEq] at h3; subst h3; exact .refl _
    | some ko => exact hh _ _ _ (q1.steps hE s1) (hE.resolved _ _) h3
  rw [indices_eq_keys, (nonphys_steps st rfl).2, ← indices_eq_keys]
  simp

theorem pendLoop_settles {he : Handler Ref Ev Comp.Ctx PKS KS} (hh : HandlerSteps (cfg K refs S) NonPhys he) {n m : Nat}
    {a b : KM Ref Ev Comp.Ctx PKS KS} {p : Pending Ref Ev PKS} {npk : NPK Ref} (hq : QInv NonPhys a) (hp : a.pend = some p)
    (hd : ∀ r, npk = .key r → Decided K r ∧ Becomes (cfg K refs S) p.idx p.ref r)
    (h : pendLoop (cfg K refs S) he n m a p npk = .ok b) : Settles p a b := by
  have hE := emits_nonPhys K refs S
  induction m generalizing a p npk with
  | zero => simp [pendLoop] at h
  | succ m ih =>
    cases npk with
    | noOp => exact resolve_settles hh hq hp (Or.inl rfl) h
    | key r =>
      simp only [pendLoop, Res.bind_eq_ok] at h
      obtain ⟨⟨pkr, es⟩, h1, s, h2, h3⟩ := h
      have hdec := (hd r rfl).1
      have q1 : QInv NonPhys { a with sched := s, pend := some { p with ref := r } } :=
        hq.micro hE (.pendNpk (Q := NonPhys) a p r pkr es s hp h1 h2 (hd r rfl).2)
      cases pkr with
      | resolved ks =>
        refine resolve_settles (a := { a with sched := s, pend := some { p with ref := r } }) (p := { p with ref := r }) (n := n) (b := b) (ks := ks) hh q1 rfl (Or.inr ⟨_, _, h1⟩) ?_
        rw [← h3]; rfl
      | newPressedKey npk =>
        cases npk with
        | noOp =>
          refine resolve_settles (a := { a with sched := s, pend := some { p with ref := r } }) (p := { p with ref := r }) (n := n) (b := b) hh q1 rfl (Or.inl rfl) ?_
          rw [← h3]; rfl
        | key r' =>
          refine ih (a := { a with sched := s, pend := some { p with ref := r } }) (p := { p with ref := r }) (npk := .key r') q1 rfl ?_ ?_
          · intro r2 e
            cases e
            exact ⟨hdec.child (npk_child (idx := p.idx) (c := a.ctx) (es := es) h1), Or.inr ⟨_, _, h1⟩⟩
          · rw [← h3]
            exact pendLoop_pend he n m { a with sched := s } _ _ _
      | pending pks =>
        exfalso
        have := hdec r (.refl r)
        rcases npk_pending (idx := p.idx) (c := a.ctx) (es := es) h1 with ⟨_, _, rfl, _⟩ | ⟨_, _, rfl, _⟩ | ⟨_, _, rfl, _⟩ <;>
          simp [immediateRef] at this

/-- The undecided key is told about an event: nothing changes for any key in the end. -/
theorem updatePending_willBe {he : Handler Ref Ev Comp.Ctx PKS KS} (hh : HandlerSteps (cfg K refs S) NonPhys he) {n : Nat}
    {a b : KM Ref Ev Comp.Ctx PKS KS} {ev : Event Ev} (hq : QInv NonPhys a) (hw : WaitOk K a)
    (h : Verif.updatePending (cfg K refs S) he n a ev = .ok b) : WaitOk K b ∧ ∀ i, willBe i b = willBe i a := by
  have hE := emits_nonPhys K refs S
  unfold Verif.updatePending at h
  cases hp : a.pend with
  | none => simp only [hp, Res.pure_eq, Res.ok.injEq] at h; subst h; exact ⟨hw, fun _ => rfl⟩
  | some p =>
    simp only [hp, Res.bind_eq_ok] at h
    obtain ⟨⟨pks, npk, es⟩, h1, s, h2, h3⟩ := h
    have q1 := hq.micro hE (.pendUpd (Q := NonPhys) a ev p pks npk es s hp h1 h2)
    cases npk with
    | none =>
      simp only [Res.pure_eq, Res.ok.injEq] at h3
      subst h3
      refine ⟨?_, fun i => ?_⟩
      · intro p' hp'
        simp only [Option.some.injEq] at hp'
        subst hp'
        exact hw p hp
      · simp [willBe, heldNow, pendIn, hp]
    | some npk =>
      have st : Settles { p with pks := pks } { a with sched := s, pend := some { p with pks := pks } } b := by
        refine pendLoop_settles hh q1 rfl ?_ h3
        intro r e
        subst e
        exact ⟨hw p hp r (pend_child (p := p.pks) (idx := p.idx) (c := a.ctx) (ev := ev) (es := es) h1),
          Or.inl ⟨_, _, _, _, _, h1⟩⟩
      obtain ⟨e1, e2, e3⟩ := st
      refine ⟨.of_none e1, fun i => ?_⟩
      have hheld : heldNow i b = heldNow i a := by
        simp only [heldNow, e1, e3, hp, List.mem_append, List.mem_singleton, Option.map_none, Option.map_some]
        by_cases h1 : i ∈ indices a.pressed <;> by_cases h2 : i = p.idx <;> simp [h1, h2, eq_comm]
      unfold willBe
      rw [hheld]
      simp only [pendIn, e1, e2, hp, List.nil_append]
      rw [downFrom_append, downFrom_append, requeueList_down (hq.queued p hp)]
      intro e
      simp [heldNow, hp, e]

/-- A handler of events that are not presses or releases of keys changes nothing for any key in the end. -/
def HandlerWill (K : Keys) (he : Handler Ref Ev Comp.Ctx PKS KS) : Prop :=
  ∀ a ev b, QInv NonPhys a → NonPhys ev → WaitOk K a → he a ev = .ok b → WaitOk K b ∧ ∀ i, willBe i b = willBe i a

theorem drain_willBe {he : Handler Ref Ev Comp.Ctx PKS KS} (hh : HandlerSteps (cfg K refs S) NonPhys he)
    (hw : HandlerWill K he) {n : Nat} {a b : KM Ref Ev Comp.Ctx PKS KS} (hq : QInv NonPhys a) (ha : WaitOk K a)
    (h : drain he n a = .ok b) : WaitOk K b ∧ ∀ i, willBe i b = willBe i a := by
  have hE := emits_nonPhys K refs S
  induction n generalizing a with
  | zero => simp [drain] at h
  | succ n ih =>
    simp only [drain] at h
    split at h
    · simp only [Res.ok.injEq] at h; subst h; exact ⟨ha, fun _ => rfl⟩
    · rename_i ev s hd
      simp only [Res.bind_eq_ok] at h
      obtain ⟨km1, h1, h2⟩ := h
      have qt := hq.micro hE (.take (Q := NonPhys) a ev s hd)
      have q0 : QInv NonPhys { a with sched := s } := by
        refine ⟨?_, ?_, hq.queued⟩
        · simpa using qt.pending
        · simpa using qt.scheduled
      have hev : NonPhys ev := by
        refine hq.pending ev ?_
        unfold Sched.dequeue at hd
        split at hd
        · simp at hd
        · rename_i e q hs
          simp only [Prod.mk.injEq] at hd
          rw [hs, hd.1]; exact List.mem_cons_self
      obtain ⟨w1, e1⟩ := hw _ _ _ q0 hev ha h1
      have q1 : QInv NonPhys km1 := qt.steps hE (hh _ _ _ q0 hev h1)
      obtain ⟨w2, e2⟩ := ih q1 w1 h2
      exact ⟨w2, fun i => (e2 i).trans (e1 i)⟩

/-- Every key the keymap can come to can be told at once, or the keys it may become can. -/
def NoNesting (K : Keys) (refs : List Ref) : Prop :=
  ∀ r ∈ refs, ∀ r', Leads K r r' → immediateRef r' = true ∨ ∀ c, Child K r' c → Decided K c

/-- A press of a key that is not down: the key is pressed, or undecided. -/
theorem pressLoop_willBe {he : Handler Ref Ev Comp.Ctx PKS KS} (hh : HandlerSteps (cfg K refs S) NonPhys he) {m idx : Nat}
    {a b : KM Ref Ev Comp.Ctx PKS KS} {r : Ref} (hq : QInv NonPhys a) (hp : a.pend = none)
    (hr : ∀ r', Leads K r r' → immediateRef r' = true ∨ ∀ c, Child K r' c → Decided K c)
    (h : pressLoop (cfg K refs S) he idx m a r = .ok b) :
    WaitOk K b ∧ b.inq = a.inq ∧ pendIn b = [] ∧ ∀ i, heldNow i b = (heldNow i a || decide (i = idx)) := by
  have hE := emits_nonPhys K refs S
  induction m generalizing a r with
  | zero => simp [pressLoop] at h
  | succ m ih =>
    simp only [pressLoop, Res.bind_eq_ok] at h
    obtain ⟨⟨pkr, es⟩, h1, s, h2, h3⟩ := h
    have hs := hq.sched_all (hE.npk _ _ _ _ _ h1) h2
    have q1 : QInv NonPhys { a with sched := s } := ⟨hs.1, hs.2, hq.queued⟩
    have pushed : ∀ {c : KM Ref Ev Comp.Ctx PKS KS} {ks : KS}, c.pend = none → c.inq = a.inq →
        indices c.pressed = indices (a.pressed ++ [.key idx r ks]) →
        WaitOk K c ∧ c.inq = a.inq ∧ pendIn c = [] ∧ ∀ i, heldNow i c = (heldNow i a || decide (i = idx)) := by
      intro c ks e1 e2 e3
      refine ⟨.of_none e1, e2, by simp [pendIn, e1], fun i => ?_⟩
      simp [heldNow, e1, e3, hp]
    cases pkr with
    | resolved ks =>
      simp only [Res.bind_eq_ok] at h3
      obtain ⟨ps, h4, o, ho, h5⟩ := h3
      obtain ⟨_, rfl⟩ := pushCap_eq_ok.1 h4
      cases o with
      | none => simp only [Res.pure_eq, Res.ok.injEq] at h5; subst h5; exact pushed (ks := ks) hp rfl rfl
      | some ko =>
        have st := hh { a with sched := s, pressed := a.pressed ++ [.key idx r ks] } _ _
          ⟨q1.pending, q1.scheduled, q1.queued⟩ (hE.resolved _ _) h5
        have e0 : (KM.fire { a with sched := s, pressed := a.pressed ++ [.key idx r ks] } (.keymap (.resolved idx ko))).pend = none := hp
        obtain ⟨e1, e2⟩ := inq_nonphys e0 st
        refine pushed (ks := ks) e1 e2 ?_
        rw [indices_eq_keys, (nonphys_steps st e0).2, ← indices_eq_keys]
        rfl
    | newPressedKey npk =>
      cases npk with
      | noOp =>
        simp only [Res.bind_eq_ok, Res.pure_eq, Res.ok.injEq] at h3
        obtain ⟨ps, h4, rfl⟩ := h3
        obtain ⟨_, rfl⟩ := pushCap_eq_ok.1 h4
        exact pushed (ks := system K |>.noOp) hp rfl (by simp)
      | key r' =>
        exact ih (a := { a with sched := s }) q1 hp
          (fun r2 hl => hr r2 (.step (npk_child (idx := idx) (c := a.ctx) (es := es) h1) hl)) h3
    | pending pks =>
      simp only [Res.pure_eq, Res.ok.injEq] at h3
      subst h3
      refine ⟨?_, rfl, rfl, fun i => by simp [heldNow, hp, eq_comm]⟩
      intro p hp'
      simp only [Option.some.injEq] at hp'
      subst hp'
      rcases hr r (.refl r) with hG | hG
      · exfalso
        rcases npk_pending (idx := idx) (c := a.ctx) (es := es) h1 with ⟨_, _, rfl, _⟩ | ⟨_, _, rfl, _⟩ | ⟨_, _, rfl, _⟩ <;>
          simp [immediateRef] at hG
      · exact hG

theorem notifyAll_willBe {a b : KM Ref Ev Comp.Ctx PKS KS} {ev : Event Ev}
    (h : notifyAll (cfg K refs S) a ev = .ok b) : ∀ i, willBe i b = willBe i a := by
  have sh := notifyAll_shape h
  refine fun i => willBe_of sh.1 sh.2.1 ?_
  unfold notifyAll at h
  simp only [Res.bind_eq_ok, Res.pure_eq, Res.ok.injEq] at h
  obtain ⟨⟨ps, s⟩, _, ⟨ctx, es⟩, _, s', _, rfl⟩ := h
  rfl

/-- An event is acted upon without an undecided key. -/
theorem processDirect_willBe (hN : NoNesting K refs) {he : Handler Ref Ev Comp.Ctx PKS KS}
    (hh : HandlerSteps (cfg K refs S) NonPhys he) {n : Nat} {a b : KM Ref Ev Comp.Ctx PKS KS} {ie : InputEvent}
    (hq : QInv NonPhys a) (hp : a.pend = none) (hd : ∀ i, ie = .release i → (indices a.pressed).Nodup)
    (h : processDirect (cfg K refs S) he n a ie = .ok b) :
    WaitOk K b ∧ ∀ i, willBe i b = willBe i { a with inq := ie :: a.inq } := by
  have hE := emits_nonPhys K refs S
  simp only [processDirect, Res.bind_eq_ok] at h
  obtain ⟨d, h1, h2⟩ := h
  have sh := notifyAll_shape h1
  have qd := hq.steps hE (notifyAll_steps (Q := NonPhys) h1)
  have dp : d.pend = none := sh.1.trans hp
  have di : d.inq = a.inq := by
    unfold notifyAll at h1
    simp only [Res.bind_eq_ok, Res.pure_eq, Res.ok.injEq] at h1
    obtain ⟨⟨ps, s⟩, _, ⟨ctx, es⟩, _, s', _, rfl⟩ := h1
    rfl
  have key : ∀ i, willBe i { a with inq := ie :: a.inq } = downFrom i (evDown i (decide (i ∈ indices a.pressed)) ie) a.inq := by
    intro i
    simp [willBe, heldNow, pendIn, hp, downFrom_cons]
  have key2 : ∀ {c : KM Ref Ev Comp.Ctx PKS KS}, c.pend = none → c.inq = a.inq →
      (∀ i, decide (i ∈ indices c.pressed) = evDown i (decide (i ∈ indices a.pressed)) ie) →
      WaitOk K c ∧ ∀ i, willBe i c = willBe i { a with inq := ie :: a.inq } := by
    intro c e1 e2 e3
    refine ⟨.of_none e1, fun i => ?_⟩
    rw [key]
    simp [willBe, heldNow, pendIn, e1, e2, e3]
  cases ie with
  | press idx =>
    simp only at h2
    by_cases hpr : hasPressed idx d.pressed = true
    · rw [if_pos hpr] at h2
      simp only [Res.pure_eq, Res.ok.injEq] at h2
      subst h2
      rw [hasPressed_iff] at hpr
      refine key2 dp di fun i => ?_
      rw [sh.2.2.2.1] at hpr ⊢
      by_cases e : idx = i
      · subst e; simp [evDown, hpr]
      · simp [evDown, e]
    · rw [if_neg hpr] at h2
      simp only [Res.bind_eq_ok] at h2
      obtain ⟨r, hr, h5⟩ := h2
      obtain ⟨w, e1, e2, e3⟩ := pressLoop_willBe hh qd dp (hN r (List.mem_of_getElem? (Res.index_eq_ok.1 hr))) h5
      refine ⟨w, fun i => ?_⟩
      rw [key]
      unfold willBe
      rw [e1, e2, e3, di, List.nil_append]
      congr 1
      simp only [heldNow, sh.2.2.2.1, dp, evDown]
      by_cases e : idx = i
      · simp [e]
      · simp [e, Ne.symm e]
  | release idx =>
    simp only [Res.pure_eq, Res.ok.injEq] at h2
    subst h2
    refine key2 dp di fun i => ?_
    have nd : (indices d.pressed).Nodup := by rw [sh.2.2.2.1]; exact hd _ rfl
    have : i ∈ indices (removeKey idx d.pressed) ↔ i ∈ indices d.pressed ∧ i ≠ idx := by
      rw [indices_eq_keys, keys_removeKey _ _ nd, indices_eq_keys]
      simp only [List.mem_map, List.mem_filter, bne_iff_ne, ne_eq]
      constructor
      · rintro ⟨x, ⟨h1, h2⟩, rfl⟩; exact ⟨⟨x, h1, rfl⟩, h2⟩
      · rintro ⟨⟨x, h1, rfl⟩, h2⟩; exact ⟨x, ⟨h1, h2⟩, rfl⟩
    simp only [this, sh.2.2.2.1, evDown]
    by_cases e : idx = i
    · simp [e]
    · simp [e, Ne.symm e]
  | vpress ko =>
    simp only [Res.bind_eq_ok, Res.pure_eq, Res.ok.injEq] at h2
    obtain ⟨ps, h3, rfl⟩ := h2
    obtain ⟨_, rfl⟩ := pushCap_eq_ok.1 h3
    exact key2 dp di fun i => by simp [evDown, sh.2.2.2.1]
  | vrelease ko =>
    simp only [Res.pure_eq, Res.ok.injEq] at h2
    subst h2
    refine key2 dp di fun i => ?_
    rw [indices_eq_keys, keys_removeVirt, ← indices_eq_keys, sh.2.2.2.1]
    rfl

/-- An event is processed: in the end, every key is where its events put it. -/
theorem processInput_willBe (hN : NoNesting K refs) {he : Handler Ref Ev Comp.Ctx PKS KS}
    (hh : HandlerSteps (cfg K refs S) NonPhys he) (hH : HandlerWill K he) {n : Nat} {a b : KM Ref Ev Comp.Ctx PKS KS}
    {ie : InputEvent} (hq : QInv NonPhys a) (hw : WaitOk K a) (hd : ∀ i, ie = .release i → (indices a.pressed).Nodup)
    (hhT : HandlerSteps (cfg K refs S) (fun _ => True) he)
    (h : processInput (cfg K refs S) he n a ie = .ok b) :
    WaitOk K b ∧ ∀ i, willBe i b = willBe i { a with inq := ie :: a.inq } := by
  have hE := emits_nonPhys K refs S
  unfold processInput at h
  cases hp : a.pend with
  | none =>
    simp only [hp, Res.bind_eq_ok] at h
    obtain ⟨c, h1, h2⟩ := h
    obtain ⟨w1, e1⟩ := processDirect_willBe hN hh hq hp hd h1
    have qc : QInv NonPhys c := hq.steps (Q' := fun _ => True) hE
      (processDirect_steps (Emits.trivial _) hhT ⟨fun _ _ => trivial, fun _ _ => trivial, hq.queued⟩ hp trivial h1)
    obtain ⟨w2, e2⟩ := drain_willBe hh hH qc w1 h2
    exact ⟨w2, fun i => (e2 i).trans ((e1 i).trans (by rw [hp]))⟩
  | some p =>
    simp only [hp, Res.bind_eq_ok] at h
    obtain ⟨q, h3, c, h4, h2⟩ := h
    have q1 : QInv NonPhys { a with pend := some { p with queued := q } } :=
      hq.micro (Q' := fun _ => True) hE (.queue a p ie q hp trivial h3)
    obtain ⟨_, rfl⟩ := pushCap_eq_ok.1 h3
    have w0 : WaitOk K { a with pend := some { p with queued := p.queued ++ [.input ie] } } := by
      intro p' hp'
      simp only [Option.some.injEq] at hp'
      subst hp'
      exact hw p hp
    obtain ⟨w1, e1⟩ := updatePending_willBe hh q1 w0 h4
    have qc := q1.steps hE (updatePending_steps hE hh q1 h4)
    obtain ⟨w2, e2⟩ := drain_willBe hh hH qc w1 h2
    refine ⟨w2, fun i => (e2 i).trans ((e1 i).trans ?_)⟩
    simp [willBe, heldNow, pendIn, hp, inputOf?]

theorem handleEvent_willBe (hN : NoNesting K refs) (n : Nat) : HandlerWill K (handleEvent (cfg K refs S) n) := by
  have hE := emits_nonPhys K refs S
  induction n with
  | zero => intro a ev b _ _ _ h; simp [handleEvent] at h
  | succ n ih =>
    intro a ev b hq hev hw h
    have hh := handleEvent_steps hE n
    simp only [handleEvent, handleBody, Res.bind_eq_ok] at h
    obtain ⟨c, h1, d, h2, h3⟩ := h
    have q0 : QInv NonPhys (a.fire ev) := by
      refine ⟨?_, ?_, ?_⟩
      · simpa using hq.pending
      · simpa using hq.scheduled
      · simpa using hq.queued
    have w0 : WaitOk K (a.fire ev) := hw.of_pend (by simp)
    have e0 : ∀ i, willBe i (a.fire ev) = willBe i a := fun i => willBe_of (by simp) (by simp) (by simp)
    obtain ⟨w1, e1⟩ := updatePending_willBe hh q0 w0 h1
    have q1 := q0.steps hE (updatePending_steps hE hh q0 h1)
    have w2 : WaitOk K d := w1.of_pend (notifyAll_shape h2).1
    have e2 := notifyAll_willBe h2
    have q2 := q1.steps hE (notifyAll_steps (Q := NonPhys) h2)
    cases ev with
    | input ie =>
      simp only at h3
      obtain ⟨w3, e3⟩ := processInput_willBe hN hh ih q2 w2
        (fun i e => by subst e; simp [NonPhys, Spec.physical] at hev) (handleEvent_steps (Emits.trivial _) n) h3
      refine ⟨w3, fun i => (e3 i).trans (Eq.trans ?_ ((e2 i).trans ((e1 i).trans (e0 i))))⟩
      have : ∀ d, evDown i d ie = d := by
        intro d
        cases ie <;> simp [NonPhys, Spec.physical] at hev <;> rfl
      unfold willBe
      simp [downFrom_append, downFrom_cons, this, heldNow, pendIn]
    | key i e =>
      simp only [Res.pure_eq, Res.ok.injEq] at h3; subst h3
      exact ⟨w2, fun i => (e2 i).trans ((e1 i).trans (e0 i))⟩
    | keymap e =>
      simp only [Res.pure_eq, Res.ok.injEq] at h3; subst h3
      exact ⟨w2, fun i => (e2 i).trans ((e1 i).trans (e0 i))⟩

/-! ## Calls -/

/-- What holds between calls. -/
structure Fine (K : Keys) (km : KM Ref Ev Comp.Ctx PKS KS) : Prop where
  q : QInv NonPhys km
  wait : WaitOk K km
  distinct : Distinct km

theorem Fine.new (ctx : Comp.Ctx) : Fine K (KM.new ctx) := ⟨QInv.new _ _, .of_none rfl, Distinct.new _⟩

theorem QInv.triv {km : KM Ref Ev Comp.Ctx PKS KS} (h : QInv NonPhys km) : QInv (fun _ => True) km :=
  h.weaken (fun _ _ => trivial)

theorem Fine.of_eq {a b : KM Ref Ev Comp.Ctx PKS KS} (h : Fine K a) (hs : b.sched = a.sched) (hp : b.pend = a.pend)
    (hr : b.pressed = a.pressed) : Fine K b := by
  refine ⟨⟨hs ▸ h.q.pending, hs ▸ h.q.scheduled, hp ▸ h.q.queued⟩, h.wait.of_pend hp, ?_⟩
  have := h.distinct
  unfold Distinct at *
  rw [hr, hp]; exact this

/-- The first event of the queue is processed. -/
theorem process_fine (hN : NoNesting K refs) {n : Nat} {a b : KM Ref Ev Comp.Ctx PKS KS} {ie : InputEvent} (hf : Fine K a)
    (h : processInputN (cfg K refs S) n a ie = .ok b) :
    Fine K b ∧ ∀ i, willBe i b = willBe i { a with inq := ie :: a.inq } := by
  have hE := emits_nonPhys K refs S
  obtain ⟨w, e⟩ := processInput_willBe hN (handleEvent_steps hE n) (handleEvent_willBe hN n) hf.q hf.wait
    (fun _ _ => hf.distinct.1) (handleEvent_steps (Emits.trivial _) n) h
  have st := processInputN_steps (Emits.trivial _) (QInv.triv hf.q) trivial h
  exact ⟨⟨hf.q.steps hE st, w, ((distinct_api _).steps st ⟨hf.distinct, QInv.triv hf.q⟩).1⟩, e⟩

theorem drain_fine (hN : NoNesting K refs) {n : Nat} {a b : KM Ref Ev Comp.Ctx PKS KS} (hf : Fine K a)
    (h : drainN (cfg K refs S) n a = .ok b) : Fine K b ∧ ∀ i, willBe i b = willBe i a := by
  have hE := emits_nonPhys K refs S
  obtain ⟨w, e⟩ := drain_willBe (handleEvent_steps hE n) (handleEvent_willBe hN n) hf.q hf.wait h
  have st := drainN_steps (Emits.trivial _) (QInv.triv hf.q) h
  exact ⟨⟨hf.q.steps hE st, w, ((distinct_api _).steps st ⟨hf.distinct, QInv.triv hf.q⟩).1⟩, e⟩

theorem handleInput_fine (hN : NoNesting K refs) {n : Nat} {a b : KM Ref Ev Comp.Ctx PKS KS} {ev : InputEvent}
    (hf : Fine K a) (hroom : a.inq.length < 31) (h : handleInput (cfg K refs S) n a ev = .ok b) :
    Fine K b ∧ ∀ i, willBe i b = evDown i (willBe i a) ev := by
  have key : ∀ i, willBe i { a with inq := a.inq ++ [ev] } = evDown i (willBe i a) ev := by
    intro i
    simp [willBe, pendIn, heldNow, downFrom]
  unfold handleInput at h
  simp only at h
  rw [if_neg (by simp only [inputCap]; omega)] at h
  split at h
  · split at h
    · simp at h
    · rename_i ie q hq
      simp only [Res.bind_eq_ok, Res.pure_eq, Res.ok.injEq] at h
      obtain ⟨c, h1, rfl⟩ := h
      have f0 : Fine K { a with idle := 0, inq := q, log := a.log ++ [ie] } := hf.of_eq rfl rfl rfl
      obtain ⟨f1, e1⟩ := process_fine hN f0 h1
      refine ⟨f1.of_eq rfl rfl rfl, fun i => ?_⟩
      rw [← key]
      refine Eq.trans ?_ ((e1 i).trans ?_)
      · rfl
      · rw [hq]; rfl
  · simp only [Res.ok.injEq] at h; subst h
    exact ⟨hf.of_eq rfl rfl rfl, key⟩

theorem tick_fine (hN : NoNesting K refs) {n : Nat} {a b : KM Ref Ev Comp.Ctx PKS KS} (hf : Fine K a)
    (h : tick (cfg K refs S) n a = .ok b) : Fine K b ∧ ∀ i, willBe i b = willBe i a := by
  have hE := emits_nonPhys K refs S
  obtain ⟨km1, s, km2, h1, h2, h3, _, rfl⟩ := tick_eq_ok h
  have i1 : Fine K km1 ∧ ∀ i, willBe i km1 = willBe i a := by
    unfold tickInput at h1
    split at h1
    · rename_i ie q hq
      split at h1
      · simp only [Res.bind_eq_ok, Res.pure_eq, Res.ok.injEq] at h1
        obtain ⟨c, h4, rfl⟩ := h1
        obtain ⟨f1, e1⟩ := process_fine hN (Fine.of_eq (b := { a with
          ctx := (cfg K refs S).sys.setCtx a.ctx a.sched.counter a.idle, inq := q, log := a.log ++ [ie] }) hf rfl rfl rfl) h4
        refine ⟨f1.of_eq rfl rfl rfl, fun i => ?_⟩
        refine Eq.trans ?_ ((e1 i).trans ?_)
        · rfl
        · simp only at hq
          simp [willBe, pendIn, heldNow, hq]
      · simp only [Res.ok.injEq] at h1; subst h1; exact ⟨hf.of_eq rfl rfl rfl, fun _ => rfl⟩
    · simp only [Res.ok.injEq] at h1; subst h1; exact ⟨hf.of_eq rfl rfl rfl, fun _ => rfl⟩
  have f2 : Fine K { km1 with delay := km1.delay - 1, sched := s } := by
    refine ⟨?_, i1.1.wait.of_pend rfl, i1.1.distinct⟩
    exact (qinv_api NonPhys hE).tick _ (i1.1.of_eq (b := { km1 with delay := km1.delay - 1 }) rfl rfl rfl).q _ s h2
  obtain ⟨f3, e3⟩ := drain_fine hN f2 h3
  exact ⟨f3.of_eq rfl rfl rfl, fun i => (Eq.trans rfl (e3 i)).trans ((Eq.trans rfl (i1.2 i)))⟩

theorem ticks_fine (hN : NoNesting K refs) {n k : Nat} {a b : KM Ref Ev Comp.Ctx PKS KS} (hf : Fine K a)
    (h : ticks (cfg K refs S) n k a = .ok b) : Fine K b ∧ ∀ i, willBe i b = willBe i a := by
  induction k generalizing a with
  | zero => simp only [ticks, Res.ok.injEq] at h; subst h; exact ⟨hf, fun _ => rfl⟩
  | succ k ih =>
    simp only [ticks, Res.bind_eq_ok] at h
    obtain ⟨c, h1, h2⟩ := h
    obtain ⟨f1, e1⟩ := tick_fine hN hf h1
    obtain ⟨f2, e2⟩ := ih f1 h2
    exact ⟨f2, fun i => (e2 i).trans (e1 i)⟩

theorem tickBy_fine (hN : NoNesting K refs) {n d : Nat} {a b : KM Ref Ev Comp.Ctx PKS KS} (hf : Fine K a)
    (h : tickBy (cfg K refs S) n a d = .ok b) : Fine K b ∧ ∀ i, willBe i b = willBe i a := by
  unfold tickBy at h
  split at h
  · exact tick_fine hN hf h
  · split at h
    · simp at h
    · exact ticks_fine hN hf h

theorem step_fine (hN : NoNesting K refs) {n : Nat} {a b : KM Ref Ev Comp.Ctx PKS KS} {op : Op} {ops : List Op} (hf : Fine K a)
    (hroom : heard (cfg K refs S) n a (op :: ops) = true) (h : step (cfg K refs S) n a op = .ok b) :
    Fine K b ∧ ∀ i, willBe i b = opDown i (willBe i a) op := by
  simp only [heard, Bool.and_eq_true] at hroom
  have hroom := hroom.1
  cases op with
  | input ev => exact handleInput_fine hN hf (by simpa using hroom) h
  | tick => exact tick_fine hN hf h
  | report =>
    simp only [Verif.step, reportOutput, map_eq_pure_bind, Res.bind_eq_ok, Res.pure_eq, Res.ok.injEq, bind_assoc] at h
    obtain ⟨os, h1, x, rfl, rfl⟩ := h
    exact ⟨hf.of_eq rfl rfl rfl, fun _ => rfl⟩
  | init =>
    simp only [Verif.step, Res.ok.injEq] at h; subst h
    refine ⟨⟨(qinv_api NonPhys (emits_nonPhys K refs S)).init a hf.q, .of_none rfl, (distinct_api (cfg K refs S)).init a hf.distinct⟩, fun i => ?_⟩
    simp [willBe, heldNow, pendIn, KM.init, downFrom, opDown]
  | setCallback c f =>
    simp only [Verif.step, KM.setCallback] at h
    split at h
    · simp only [Res.ok.injEq] at h; subst h
      exact ⟨hf.of_eq rfl rfl rfl, fun _ => rfl⟩
    · simp at h
  | setMsPerTick ms =>
    simp only [Verif.step, Res.ok.injEq] at h; subst h
    exact ⟨hf.of_eq rfl rfl rfl, fun _ => rfl⟩
  | inputAfter d ev =>
    simp only [Verif.step, handleInputAfterTime, map_eq_pure_bind, Res.bind_eq_ok, Res.pure_eq, Res.ok.injEq] at h
    obtain ⟨x, ⟨km1, h1, km2, h2, r, h3, h4⟩, h5⟩ := h
    simp only [h1] at hroom
    split at h4
    · simp at h4
    · simp only [Res.ok.injEq] at h4
      subst h4; subst h5
      obtain ⟨f1, e1⟩ := tickBy_fine hN hf h1
      obtain ⟨f2, e2⟩ := handleInput_fine hN f1 (by simpa using hroom) h2
      exact ⟨f2, fun i => by rw [e2, e1]; rfl⟩
  | tickToNext =>
    simp only [Verif.step, tickToNext, map_eq_pure_bind, Res.bind_eq_ok, Res.pure_eq, Res.ok.injEq] at h
    obtain ⟨x, ⟨o, h1, h2⟩, h5⟩ := h
    cases o with
    | none => simp only [Res.ok.injEq] at h2; subst h2; subst h5; exact ⟨hf, fun _ => rfl⟩
    | some d =>
      simp only [Res.bind_eq_ok, Res.ok.injEq] at h2
      obtain ⟨km1, h3, r, h4, rfl⟩ := h2
      subst h5
      exact tickBy_fine hN hf h3

theorem run_fine (hN : NoNesting K refs) {n : Nat} {a b : KM Ref Ev Comp.Ctx PKS KS} {ops : List Op} (hf : Fine K a)
    (hroom : heard (cfg K refs S) n a ops = true) (h : run (cfg K refs S) n a ops = .ok b) :
    Fine K b ∧ ∀ i, willBe i b = ops.foldl (opDown i) (willBe i a) := by
  induction ops generalizing a with
  | nil => simp only [run, Res.ok.injEq] at h; subst h; exact ⟨hf, fun _ => rfl⟩
  | cons op ops ih =>
    simp only [run, Res.bind_eq_ok] at h
    obtain ⟨c, h1, h2⟩ := h
    obtain ⟨f1, e1⟩ := step_fine hN hf hroom h1
    simp only [heard, Bool.and_eq_true, h1] at hroom
    obtain ⟨f2, e2⟩ := ih f1 hroom.2 h2
    exact ⟨f2, fun i => by rw [e2, e1]; rfl⟩

end

end Verif.Down
