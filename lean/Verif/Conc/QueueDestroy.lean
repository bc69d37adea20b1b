import Verif.Conc.QueueInv
import Mathlib.Tactic.ByContra

/-
The end of a `message_queue_t`: concurrency/message_queue.h:37-55 and the part of thread.h:35-40 that follows, and C134.

The transition system of QueueModel.lean with one more thread, the owner, who destroys the object while the worker may be
anywhere in `run`.

* The class the user derives from `message_queue_t` is destroyed first.  Its destructor may begin with `safe_delete`
  (`polite`), as the comment at message_queue.h:46-49 asks of those who override `on_start` or `on_stop`.
* Once it is destroyed, `on_new_message` is the pure virtual function of message_queue.h:189; calling it ends the program.
  `on_start` and `on_stop` are the empty functions of message_queue.h:172 and 183; `run` is `message_queue_t`'s own.
* A callback of the user lasts from one step to the next (`busy`).  If the derived class is destroyed in between, the
  callback executes on destroyed members (`torn`).
* Then `~message_queue_t` calls `stop` and `join`, empties the container and the object is gone.
* Clients may do what they like until the object is gone; the worker continues even then if it has not returned.
-/

namespace Verif.MsgQueue

variable {α : Type}

/-- The owner. -/
inductive OPc where
  | alive
  | politeStop | politeJoin    -- 53-54, called by the destructor of the derived class
  | vanish                     -- the members of the derived class are destroyed
  | baseStop | baseJoin        -- 41, 53-54
  | baseClear                  -- 42
  | gone
  deriving DecidableEq, Repr

structure DSt (α : Type) where
  q       : St α
  opc     : OPc
  derived : Bool               -- the derived class exists
  busy    : Bool               -- a callback of the derived class is being executed
  torn    : Bool               -- the derived class has been destroyed during one
  pure    : Bool               -- a pure virtual function has been called

inductive DAct (α : Type) where
  | q (a : Act α)
  | destroy (polite : Bool)    -- the owner begins the destruction
  | owner                      -- the next step of it
  deriving DecidableEq, Repr

def dinit : DSt α := { q := init, opc := .alive, derived := true, busy := false, torn := false, pure := false }

/-- The worker is at a call of a virtual function: `on_start` :139, `on_new_message` :155, `on_stop` :160. -/
def WPc.callback : WPc α → Bool
  | .onStart | .handle _ | .onStop => true
  | _ => false

/-- The worker is at the call of `on_new_message`, :155. -/
def WPc.handling : WPc α → Bool
  | .handle _ => true
  | _ => false

/-- There is no thread inside `run`. -/
def WPc.over : WPc α → Bool
  | .notStarted | .finished => true
  | _ => false

/-- One step of the worker on an object that may be incomplete. -/
def dworker (pick : Pick α) (d : DSt α) : Option (DSt α) :=
  if d.q.wpc.callback && d.derived && !d.busy then some { d with busy := true }
  else if d.q.wpc.handling && !d.derived then some { d with pure := true }
  else (worker pick d.q).map fun q => { d with q := q, busy := false }

/-- One step of the owner, message_queue.h:37-55. -/
def downer (d : DSt α) : Option (DSt α) :=
  match d.opc with
  | .alive | .gone => none
  | .politeStop => some { d with q := { d.q with stopped := true }, opc := .politeJoin }
  | .politeJoin => if d.q.wpc.over then some { d with opc := .vanish } else none
  | .vanish => some { d with opc := .baseStop, derived := false, torn := d.busy }
  | .baseStop => some { d with q := { d.q with stopped := true }, opc := .baseJoin }
  | .baseJoin => if d.q.wpc.over then some { d with opc := .baseClear } else none
  | .baseClear => some { d with q := { d.q with queue := [] }, opc := .gone }

/-- One step; nothing is said about what follows a call of a pure virtual function or a torn callback. -/
def dstep (pick : Pick α) (d : DSt α) (a : DAct α) : Option (DSt α) :=
  if d.pure || d.torn then none
  else match a with
  | .q .start => if d.opc = .alive then (step pick d.q .start).map fun q => { d with q := q } else none
  | .q .worker => dworker pick d
  | .q .wake => (step pick d.q .wake).map fun q => { d with q := q }
  | .q .timeout => (step pick d.q .timeout).map fun q => { d with q := q }
  | .q a => if d.opc = .gone then none else (step pick d.q a).map fun q => { d with q := q }
  | .destroy polite => if d.opc = .alive then some { d with opc := if polite then .politeStop else .vanish } else none
  | .owner => downer d

def dexec (pick : Pick α) (d : DSt α) : List (DAct α) → Option (DSt α)
  | [] => some d
  | a :: as => (dstep pick d a).bind fun d' => dexec pick d' as

def DReach (pick : Pick α) (d : DSt α) : Prop := ∃ sched, dexec pick dinit sched = some d

/-- The executions in which the derived class's destructor begins with `safe_delete`. -/
def Polite (sched : List (DAct α)) : Prop := DAct.destroy false ∉ sched

theorem dexec_append (pick : Pick α) (d : DSt α) (l1 l2 : List (DAct α)) :
    dexec pick d (l1 ++ l2) = (dexec pick d l1).bind fun d' => dexec pick d' l2 := by
  induction l1 generalizing d with
  | nil => rfl
  | cons a as ih =>
    simp only [List.cons_append, dexec]
    cases dstep pick d a <;> simp [ih]

theorem dexec_ind {pick : Pick α} {P : DSt α → Prop} {A : DAct α → Prop}
    (hstep : ∀ d a d', P d → A a → dstep pick d a = some d' → P d') :
    ∀ (sched : List (DAct α)) (d d' : DSt α), P d → (∀ a ∈ sched, A a) → dexec pick d sched = some d' → P d' := by
  intro sched
  induction sched with
  | nil => intro d d' h _ hs; injection hs with hs; subst hs; exact h
  | cons l ls ih =>
    intro d d' h hA hs
    simp only [dexec] at hs
    cases hst : dstep pick d l with
    | none => rw [hst] at hs; cases hs
    | some d1 =>
      rw [hst] at hs
      exact ih d1 d' (hstep d l d1 h (hA l (by simp)) hst) (fun a ha => hA a (by simp [ha])) hs

/-! ### Invariants -/

def OPc.broken : OPc → Bool
  | .baseStop | .baseJoin | .baseClear | .gone => true
  | _ => false

def OPc.joined : OPc → Bool
  | .baseClear | .gone => true
  | _ => false

structure DInv (d : DSt α) : Prop where
  inv    : d.opc ≠ .gone → Inv d.q
  der    : d.derived = false ↔ d.opc.broken = true
  join   : d.opc.joined = true → d.q.wpc.over = true
  busy   : d.busy = true → d.q.wpc.callback = true

theorem inv_stopped {s : St α} (h : Inv s) (b : Bool) : Inv { s with stopped := b } :=
  ⟨h.wown, h.cown, h.perm, h.saw, h.alive, h.empty, h.out, h.flag, h.clear, h.disc⟩

theorem worker_over {pick : Pick α} {s : St α} (h : s.wpc.over = true) : worker pick s = none := by
  unfold worker
  cases hw : s.wpc <;> rw [hw] at h <;> first | rfl | cases h

/-- Nobody but the worker moves it. -/
theorem step_wpc {pick : Pick α} {s s' : St α} {a : Act α} (hs : step pick s a = some s') :
    s'.wpc = s.wpc ∨ a = .start ∨ a = .worker ∨ (s.wpc = .sleeping ∧ (s'.wpc = .waitPred ∨ s'.wpc = .testDiscard)) := by
  cases a with
  | start => simp
  | worker => simp
  | wake =>
    simp only [step] at hs
    split at hs
    · injection hs with hs; subst hs; simp_all [St.w]
    · cases hs
  | timeout =>
    simp only [step] at hs
    split at hs
    · injection hs with hs; subst hs; simp_all [St.w]
    · cases hs
  | call t op =>
    left
    simp only [step] at hs
    split at hs
    · injection hs with hs; subst hs; cases op <;> rfl
    · cases hs
  | client t =>
    left
    simp only [step, client] at hs
    split at hs <;> try split at hs
    all_goals first | (cases hs; done) | (injection hs with hs; subst hs; rfl)

theorem dinv_step {pick : Pick α} (hp : GoodPick pick) {d d' : DSt α} {a : DAct α} (h : DInv d)
    (hs : dstep pick d a = some d') : DInv d' := by
  have other : ∀ (a : Act α) (q : St α), step pick d.q a = some q → a ≠ .worker → (a = .start → d.opc = .alive) →
      DInv { d with q := q } := by
    intro a q hq hw hst
    have hpc := step_wpc hq
    refine ⟨fun hg => inv_step hp (h.inv hg) a hq, h.der, fun hj => ?_, fun hb => ?_⟩
    · have ho := h.join hj
      rcases hpc with e | e | e | ⟨e, _⟩
      · show q.wpc.over = true; rw [e]; exact ho
      · have hal := hst e
        simp only [hal, OPc.joined] at hj; cases hj
      · exact absurd e hw
      · rw [e] at ho; cases ho
    · have ho := h.busy hb
      rcases hpc with e | e | e | ⟨e, _⟩
      · show q.wpc.callback = true; rw [e]; exact ho
      · subst e
        simp only [step] at hq
        split at hq
        · next e => rw [e] at ho; cases ho
        · next e => rw [e] at ho; cases ho
        · cases hq
      · exact absurd e hw
      · rw [e] at ho; cases ho
  unfold dstep at hs
  split at hs
  · cases hs
  cases a with
  | destroy polite =>
    simp only at hs
    split at hs
    · next ho =>
      injection hs with hs; subst hs
      have hd := h.der
      rw [ho] at hd
      refine ⟨fun _ => h.inv (by rw [ho]; simp), ?_, ?_, h.busy⟩
      · cases polite <;> simpa [OPc.broken] using hd
      · cases polite <;> simp [OPc.joined]
    · cases hs
  | owner =>
    simp only [downer] at hs
    have hd := h.der
    split at hs
    · cases hs
    · cases hs
    · next ho =>
      injection hs with hs; subst hs
      rw [ho] at hd
      exact ⟨fun _ => inv_stopped (h.inv (by rw [ho]; simp)) _, by simpa [OPc.broken] using hd, by simp [OPc.joined], h.busy⟩
    · next ho =>
      split at hs
      · injection hs with hs; subst hs
        rw [ho] at hd
        exact ⟨fun _ => h.inv (by rw [ho]; simp), by simpa [OPc.broken] using hd, by simp [OPc.joined], h.busy⟩
      · cases hs
    · next ho =>
      injection hs with hs; subst hs
      exact ⟨fun _ => h.inv (by rw [ho]; simp), by simp [OPc.broken], by simp [OPc.joined], h.busy⟩
    · next ho =>
      injection hs with hs; subst hs
      rw [ho] at hd
      exact ⟨fun _ => inv_stopped (h.inv (by rw [ho]; simp)) _, by simpa [OPc.broken] using hd, by simp [OPc.joined], h.busy⟩
    · next ho =>
      split at hs
      · next hov =>
        injection hs with hs; subst hs
        rw [ho] at hd
        exact ⟨fun _ => h.inv (by rw [ho]; simp), by simpa [OPc.broken] using hd, fun _ => hov, h.busy⟩
      · cases hs
    · next ho =>
      injection hs with hs; subst hs
      rw [ho] at hd
      refine ⟨fun hg => absurd rfl hg, by simpa [OPc.broken] using hd, fun _ => h.join (by rw [ho]; rfl), h.busy⟩
  | q a =>
    cases a with
    | worker =>
      simp only [dworker] at hs
      split at hs
      · next hc =>
        injection hs with hs; subst hs
        simp only [Bool.and_eq_true] at hc
        exact ⟨h.inv, h.der, h.join, fun _ => hc.1.1⟩
      · split at hs
        · injection hs with hs; subst hs
          exact ⟨h.inv, h.der, h.join, h.busy⟩
        · cases hw : worker pick d.q with
          | none => rw [hw] at hs; cases hs
          | some q =>
            rw [hw] at hs
            simp only [Option.map_some, Option.some.injEq] at hs
            subst hs
            refine ⟨fun hg => inv_worker hp (h.inv hg) hw, h.der, fun hj => ?_, by simp⟩
            rw [worker_over (h.join hj)] at hw
            cases hw
    | start =>
      simp only at hs
      split at hs
      · next ho =>
        cases hq : step pick d.q .start with
        | none => rw [hq] at hs; cases hs
        | some q =>
          rw [hq] at hs
          simp only [Option.map_some, Option.some.injEq] at hs
          subst hs
          exact other _ q hq (by simp) (fun _ => ho)
      · cases hs
    | wake =>
      simp only at hs
      cases hq : step pick d.q .wake with
      | none => rw [hq] at hs; cases hs
      | some q =>
        rw [hq] at hs
        simp only [Option.map_some, Option.some.injEq] at hs
        subst hs
        exact other _ q hq (by simp) (by simp)
    | timeout =>
      simp only at hs
      cases hq : step pick d.q .timeout with
      | none => rw [hq] at hs; cases hs
      | some q =>
        rw [hq] at hs
        simp only [Option.map_some, Option.some.injEq] at hs
        subst hs
        exact other _ q hq (by simp) (by simp)
    | call t op =>
      simp only at hs
      split at hs
      · cases hs
      cases hq : step pick d.q (.call t op) with
      | none => rw [hq] at hs; cases hs
      | some q =>
        rw [hq] at hs
        simp only [Option.map_some, Option.some.injEq] at hs
        subst hs
        exact other _ q hq (by simp) (by simp)
    | client t =>
      simp only at hs
      split at hs
      · cases hs
      cases hq : step pick d.q (.client t) with
      | none => rw [hq] at hs; cases hs
      | some q =>
        rw [hq] at hs
        simp only [Option.map_some, Option.some.injEq] at hs
        subst hs
        exact other _ q hq (by simp) (by simp)

theorem dinv_init : DInv (dinit : DSt α) :=
  ⟨fun _ => inv_init, by simp [dinit, OPc.broken], by simp [dinit, OPc.joined], by simp [dinit]⟩

theorem dreach_inv {pick : Pick α} (hp : GoodPick pick) {d : DSt α} (h : DReach pick d) : DInv d := by
  obtain ⟨sched, hs⟩ := h
  exact dexec_ind (P := DInv) (A := fun _ => True) (fun _ _ _ hi _ hs => dinv_step hp hi hs) sched _ _ dinv_init
    (fun _ _ => trivial) hs

/-! ### C134 -/

/-- C134 as one would like to have it: whenever the object is destroyed, no pure virtual function is called, no callback is
interrupted by the destruction, and there is no thread left when the object is gone. -/
def C134_statement (α : Type) : Prop :=
  ∀ (pick : Pick α), GoodPick pick → ∀ d, DReach pick d → d.pure = false ∧ d.torn = false ∧ (d.opc = .gone → d.q.wpc.over = true)

theorem pickFront_good : GoodPick (pickFront : Pick α) :=
  ⟨rfl, fun q hq => by cases q with
    | nil => exact absurd rfl hq
    | cons m q => exact ⟨m, q, rfl, List.Perm.refl _⟩⟩

/-- The queue is started, a message is received, `stop` is called, and the object is destroyed while the message waits. -/
def destroySched : List (DAct Nat) :=
  [.q .start] ++ List.replicate 6 (.q .worker) ++
    [.q (.call 1 (.receive 10)), .q (.client 1), .q (.client 1), .q (.client 1), .q (.client 1),
     .q (.call 1 .stop), .q (.client 1), .q (.client 1),
     .destroy false, .owner, .q .wake] ++ List.replicate 8 (.q .worker)

/-- C134 does not hold: the queue has been stopped, and destroying it still calls the pure virtual `on_new_message`. -/
theorem C134_counterexample : ¬ C134_statement Nat := by
  intro h
  have hk : (dexec pickFront dinit destroySched).map (fun d => (d.pure, d.opc, d.q.wpc, d.q.stopped)) =
      some (true, .baseStop, .handle 10, true) := by decide +kernel
  cases hs : dexec pickFront dinit destroySched with
  | none => rw [hs] at hk; cases hk
  | some d =>
    rw [hs] at hk
    simp only [Option.map_some, Option.some.injEq, Prod.mk.injEq] at hk
    have := (h pickFront pickFront_good d ⟨_, hs⟩).1
    rw [hk.1] at this
    cases this

/-- C134: nor is a callback that is being executed waited for before the members it works on are destroyed. -/
theorem C134_counterexample_torn : ∃ d : DSt Nat, DReach pickFront d ∧ d.torn = true ∧ d.q.wpc = .handle 10 := by
  have hk : (dexec pickFront dinit ([.q .start] ++ List.replicate 6 (.q .worker) ++
    [.q (.call 1 (.receive 10)), .q (.client 1), .q (.client 1), .q (.client 1), .q (.client 1), .q .wake] ++
      List.replicate 8 (.q .worker) ++ [.destroy false, .owner])).map (fun d => (d.torn, d.q.wpc)) =
      some (true, .handle 10) := by decide +kernel
  cases hs : dexec (pickFront (α := Nat)) dinit ([.q .start] ++ List.replicate 6 (.q .worker) ++
    [.q (.call 1 (.receive 10)), .q (.client 1), .q (.client 1), .q (.client 1), .q (.client 1), .q .wake] ++
      List.replicate 8 (.q .worker) ++ [.destroy false, .owner]) with
  | none => rw [hs] at hk; cases hk
  | some d =>
    rw [hs] at hk
    simp only [Option.map_some, Option.some.injEq, Prod.mk.injEq] at hk
    exact ⟨d, ⟨_, hs⟩, hk⟩

/-- Nothing happens to an object that is gone. -/
theorem gone_stuck {pick : Pick α} {d : DSt α} (hg : d.opc = .gone) (hov : d.q.wpc.over = true) (a : DAct α) :
    dstep pick d a = none := by
  have _hns : d.q.wpc ≠ .sleeping := fun e => by rw [e] at hov; cases hov
  unfold dstep
  split
  · rfl
  cases a with
  | destroy p => simp [hg]
  | owner => simp [downer, hg]
  | q a =>
    cases a with
    | start => simp [hg]
    | worker =>
      have h1 : d.q.wpc.callback = false := by cases hw : d.q.wpc <;> rw [hw] at hov <;> first | rfl | cases hov
      have h2 : d.q.wpc.handling = false := by cases hw : d.q.wpc <;> rw [hw] at hov <;> first | rfl | cases hov
      simp [dworker, h1, h2, worker_over hov]
    | wake => simp [step]
    | timeout => simp [step]
    | call t op => rfl
    | client t => rfl

/-- C134: the destructor waits for the thread in any case: when the object is gone there is no thread inside `run`, the
container is empty, and no step of any thread can touch the object. -/
theorem C134_joined (pick : Pick α) (hp : GoodPick pick) (d : DSt α) (h : DReach pick d) (hg : d.opc = .gone) :
    d.q.wpc.over = true ∧ d.q.queue = [] ∧ ∀ a, dstep pick d a = none := by
  have hov := (dreach_inv hp h).join (by rw [hg]; rfl)
  refine ⟨hov, ?_, gone_stuck hg hov⟩
  obtain ⟨sched, hs⟩ := h
  refine (dexec_ind (P := fun d => DInv d ∧ (d.opc = .gone → d.q.queue = [])) (A := fun _ => True) ?_ sched _ _
    ⟨dinv_init, by simp [dinit]⟩ (fun _ _ => trivial) hs).2 hg
  intro d a d' ⟨hi, hq⟩ _ hst
  refine ⟨dinv_step hp hi hst, fun hg' => ?_⟩
  by_cases hgd : d.opc = .gone
  · rw [gone_stuck hgd (hi.join (by rw [hgd]; rfl))] at hst
    cases hst
  · unfold dstep at hst
    split at hst
    · cases hst
    cases a with
    | owner =>
      simp only [downer] at hst
      split at hst <;> try split at hst
      all_goals first | (cases hst; done) | (injection hst with hst; subst hst; first | rfl | cases hg')
    | destroy p =>
      simp only at hst
      split at hst
      · injection hst with hst; subst hst; cases p <;> cases hg'
      · cases hst
    | q a =>
      have key : d'.opc = d.opc := by
        cases a <;> simp only [dworker] at hst
        case worker =>
          split at hst
          · injection hst with hst; subst hst; rfl
          · split at hst
            · injection hst with hst; subst hst; rfl
            · rw [Option.map_eq_some_iff] at hst
              obtain ⟨_, _, rfl⟩ := hst; rfl
        all_goals
          first
          | (rw [Option.map_eq_some_iff] at hst; obtain ⟨_, _, rfl⟩ := hst; rfl)
          | (split at hst
             · first | cases hst | (rw [Option.map_eq_some_iff] at hst; obtain ⟨_, _, rfl⟩ := hst; rfl)
             · cases hst)
      exact absurd (key ▸ hg') hgd

/-- The kinds of steps. -/
inductive DCase (pick : Pick α) (d d' : DSt α) : DAct α → Prop where
  | env (b : Act α) (q : St α) (hw : b ≠ .worker) (hst : b = .start → d.opc = .alive) (hq : step pick d.q b = some q)
      (e : d' = { d with q := q }) : DCase pick d d' (.q b)
  | enter (hc : d.q.wpc.callback = true) (hd : d.derived = true) (e : d' = { d with busy := true }) : DCase pick d d' (.q .worker)
  | crash (hc : d.q.wpc.handling = true) (hd : d.derived = false) (e : d' = { d with pure := true }) : DCase pick d d' (.q .worker)
  | move (q : St α) (hh : d.q.wpc.handling = true → d.derived = true) (hw : worker pick d.q = some q)
      (e : d' = { d with q := q, busy := false }) : DCase pick d d' (.q .worker)
  | destroy (polite : Bool) (ha : d.opc = .alive)
      (e : d' = { d with opc := if polite then .politeStop else .vanish }) : DCase pick d d' (.destroy polite)
  | owner (ho : downer d = some d') : DCase pick d d' .owner

theorem dstep_case {pick : Pick α} {d d' : DSt α} {a : DAct α} (hs : dstep pick d a = some d') :
    d.pure = false ∧ d.torn = false ∧ DCase pick d d' a := by
  unfold dstep at hs
  split at hs
  · cases hs
  next hpt =>
  simp only [Bool.or_eq_true, not_or, Bool.not_eq_true] at hpt
  refine ⟨hpt.1, hpt.2, ?_⟩
  cases a with
  | destroy p =>
    simp only at hs
    split at hs
    · next ha => injection hs with hs; exact .destroy p ha hs.symm
    · cases hs
  | owner => exact .owner hs
  | q a =>
    cases a <;> simp only [dworker] at hs
    case worker =>
      split at hs
      · next hc =>
        injection hs with hs
        simp only [Bool.and_eq_true] at hc
        exact .enter hc.1.1 hc.1.2 hs.symm
      · split at hs
        · next hc =>
          injection hs with hs
          simp only [Bool.and_eq_true, Bool.not_eq_true'] at hc
          exact .crash hc.1 hc.2 hs.symm
        · next hc =>
          rw [Option.map_eq_some_iff] at hs
          obtain ⟨q, hq, e⟩ := hs
          refine .move q (fun hh => ?_) hq e.symm
          cases hd : d.derived
          · simp [hh, hd] at hc
          · rfl
    case start =>
      split at hs
      · next ha =>
        rw [Option.map_eq_some_iff] at hs
        obtain ⟨q, hq, e⟩ := hs
        exact .env _ q (by simp) (fun _ => ha) hq e.symm
      · cases hs
    case wake | timeout =>
      rw [Option.map_eq_some_iff] at hs
      obtain ⟨q, hq, e⟩ := hs
      exact .env _ q (by simp) (by simp) hq e.symm
    case call | client =>
      split at hs
      · cases hs
      · rw [Option.map_eq_some_iff] at hs
        obtain ⟨q, hq, e⟩ := hs
        exact .env _ q (by simp) (by simp) hq e.symm

/-! #### The derived class waits for its thread -/

def OPc.late : OPc → Bool
  | .vanish | .baseStop | .baseJoin | .baseClear | .gone => true
  | _ => false

theorem over_env {pick : Pick α} {s s' : St α} {a : Act α} (hs : step pick s a = some s') (hw : a ≠ .worker)
    (hst : a ≠ .start) (ho : s.wpc.over = true) : s'.wpc.over = true := by
  rcases step_wpc hs with e | e | e | ⟨e, _⟩
  · rw [e]; exact ho
  · exact absurd e hst
  · exact absurd e hw
  · rw [e] at ho; cases ho

/-- C134, the part that holds: if the destructor of the derived class begins with `safe_delete`, then whatever the threads do,
before and during the destruction, no pure virtual function is called and no callback is interrupted by the destruction. -/
theorem C134_safe_delete_partial (pick : Pick α) (hp : GoodPick pick) (sched : List (DAct α)) (hpol : Polite sched)
    (d : DSt α) (hs : dexec pick dinit sched = some d) : d.pure = false ∧ d.torn = false := by
  refine (dexec_ind (P := fun d => (d.pure = false ∧ d.torn = false) ∧ DInv d ∧ (d.opc.late = true → d.q.wpc.over = true))
    (A := fun a => a ≠ .destroy false) ?_ sched dinit d ⟨⟨rfl, rfl⟩, dinv_init, by simp [dinit, OPc.late]⟩
    (fun a ha e => hpol (e ▸ ha)) hs).1
  intro d a d' ⟨⟨h1, h2⟩, hi, hl⟩ hA hst
  have hi' := dinv_step hp hi hst
  obtain ⟨_, _, hc⟩ := dstep_case hst
  have hb : d.q.wpc.over = true → d.busy = false := fun ho => by
    cases hb : d.busy
    · rfl
    · have := hi.busy hb
      cases hw : d.q.wpc <;> rw [hw] at ho this <;> first | (cases ho; done) | cases this
  have hbr : d.derived = false → d.q.wpc.over = true := fun hd => hl (by
    have := hi.der.1 hd
    cases ho : d.opc <;> rw [ho] at this <;> first | rfl | cases this)
  cases hc with
  | env b q hw hal hq e =>
    subst e
    refine ⟨⟨h1, h2⟩, hi', fun hlt => ?_⟩
    refine over_env hq hw (fun e => ?_) (hl hlt)
    have := hal e
    simp only [this, OPc.late] at hlt
    cases hlt
  | enter hc hd e => subst e; exact ⟨⟨h1, h2⟩, hi', hl⟩
  | crash hc hd e =>
    have := hbr hd
    cases hw : d.q.wpc <;> rw [hw] at hc this <;> first | (cases hc; done) | cases this
  | move q hh hw e =>
    subst e
    refine ⟨⟨h1, h2⟩, hi', fun hlt => ?_⟩
    rw [worker_over (hl hlt)] at hw
    cases hw
  | destroy p ha e =>
    subst e
    cases p
    · exact absurd rfl hA
    · exact ⟨⟨h1, h2⟩, hi', by simp [OPc.late]⟩
  | owner ho =>
    simp only [downer] at ho
    split at ho <;> try split at ho
    all_goals try (cases ho; done)
    all_goals
      injection ho with ho
      subst ho
    · exact ⟨⟨h1, h2⟩, hi', by simp [OPc.late]⟩
    · next hov => exact ⟨⟨h1, h2⟩, hi', fun _ => hov⟩
    · next ho =>
      have hov := hl (by rw [ho]; rfl)
      exact ⟨⟨h1, hb hov⟩, hi', fun _ => hov⟩
    · next ho => exact ⟨⟨h1, h2⟩, hi', fun _ => hl (by rw [ho]; rfl)⟩
    · next hov => exact ⟨⟨h1, h2⟩, hi', fun _ => hov⟩
    · next ho => exact ⟨⟨h1, h2⟩, hi', fun _ => hl (by rw [ho]; rfl)⟩

/-! #### Exactly when the destruction fails -/

/-- A message will be looked at before anything else could prevent it: the worker holds one, or one is waiting, is not about
to be discarded, and the worker has not yet decided to leave its loop. -/
def Doomed (s : St α) : Prop :=
  match s.wpc with
  | .popRelease _ | .handle _ => True
  | .popEnter | .popTake => s.queue ≠ []
  | .waitPred | .sleeping | .testDiscard | .innerPred | .innerDiscard | .onStart | .setRunning =>
    s.queue ≠ [] ∧ s.discard = false
  | .checkRunning => s.queue ≠ [] ∧ s.discard = false ∧ s.running = false
  | .loopTest => s.queue ≠ [] ∧ s.discard = false ∧ s.running = true
  | .readStopped | .clearRelease => s.queue ≠ [] ∧ s.discard = false ∧ s.stopped = false
  | _ => False

def DAct.isCall : DAct α → Bool
  | .q (.call _ _) => true
  | _ => false

theorem doomed_worker {pick : Pick α} (hg : GoodPick pick) {s s' : St α} (hw : worker pick s = some s') (hh : s.wpc.handling = false)
    (hd : Doomed s') : Doomed s := by
  unfold worker at hw
  unfold Doomed at hd ⊢
  cases hp : s.wpc <;> rw [hp] at hw hh <;> simp only [WPc.handling, reduceCtorEq] at hw hh ⊢
  all_goals try split at hw
  all_goals try split at hw
  all_goals first | (cases hw; done) | skip
  all_goals
    injection hw with hw
    subst hw
  all_goals have he := hg.empty
  all_goals simp_all [St.w, St.emit]
  intro e
  simp_all

/-- Until the first call of a client. -/
theorem doomed_step {pick : Pick α} (hg : GoodPick pick) {d d' : DSt α} {a : DAct α} (hb : d.opc.broken = true) (hder : d.derived = false)
    (hidle : ∀ t, d.q.cpc t = .idle) (ha : a.isCall = false) (hs : dstep pick d a = some d') (hn : ¬ Doomed d.q) :
    d'.pure = false ∧ d'.opc.broken = true ∧ d'.derived = false ∧ (∀ t, d'.q.cpc t = .idle) ∧ ¬ Doomed d'.q := by
  obtain ⟨hpu, _, hc⟩ := dstep_case hs
  cases hc with
  | env b q hw hal hq e =>
    subst e
    cases b with
    | start => rw [hal rfl] at hb; cases hb
    | worker => exact absurd rfl hw
    | call t op => cases ha
    | client t => simp only [step, client, hidle t] at hq; cases hq
    | wake | timeout =>
      simp only [step] at hq
      split at hq
      · next hsl =>
        injection hq with hq; subst hq
        refine ⟨hpu, hb, hder, hidle, fun hd => hn ?_⟩
        unfold Doomed at hd ⊢
        rw [hsl]
        exact hd
      · cases hq
  | enter hc hd e => rw [hder] at hd; cases hd
  | crash hc hd e =>
    exfalso
    apply hn
    cases hw : d.q.wpc <;> rw [hw] at hc <;> first | (cases hc; done) | skip
    unfold Doomed; rw [hw]; trivial
  | move q hh hw e =>
    subst e
    have hh' : d.q.wpc.handling = false := by
      cases hx : d.q.wpc.handling
      · rfl
      · rw [hh hx] at hder; cases hder
    refine ⟨hpu, hb, hder, ?_, fun hd => hn (doomed_worker hg hw hh' hd)⟩
    intro t
    have : q.cpc = d.q.cpc := by
      unfold worker at hw
      split at hw <;> try split at hw
      all_goals try split at hw
      all_goals first | (cases hw; done) | (injection hw with hw; subst hw; rfl)
    show q.cpc t = _
    rw [this]; exact hidle t
  | destroy p hal e => rw [hal] at hb; cases hb
  | owner ho =>
    simp only [downer] at ho
    split at ho <;> try split at ho
    all_goals try (cases ho; done)
    all_goals
      injection ho with ho
      subst ho
    · next e => rw [e] at hb; cases hb
    · next e _ => rw [e] at hb; cases hb
    · next e => rw [e] at hb; cases hb
    · refine ⟨hpu, rfl, hder, hidle, fun hd => hn ?_⟩
      unfold Doomed at hd ⊢
      cases hw : d.q.wpc <;> simp only [hw] at hd ⊢ <;> simp_all
    · exact ⟨hpu, rfl, hder, hidle, hn⟩
    · refine ⟨hpu, rfl, hder, hidle, fun hd => hn ?_⟩
      unfold Doomed at hd ⊢
      cases hw : d.q.wpc <;> simp only [hw] at hd ⊢ <;> simp_all

def WPc.dist : WPc α → Nat
  | .checkRunning => 20
  | .onStart => 19
  | .setRunning => 18
  | .clearRelease => 17
  | .readStopped => 16
  | .loopTest => 15
  | .sleeping => 14
  | .waitPred => 13
  | .testDiscard => 12
  | .innerPred => 11
  | .innerDiscard => 10
  | .popEnter => 9
  | .popTake => 8
  | .popRelease _ => 7
  | _ => 0

theorem doomed_forward {pick : Pick α} (hp : GoodPick pick) {s : St α} (hi : Inv s) (hm : ∀ t, s.mtx ≠ some (.client t))
    (hh : s.wpc.handling = false) (hd : Doomed s) :
    ∃ a s', (a = .worker ∨ a = .wake) ∧ step pick s a = some s' ∧ Doomed s' ∧ s'.wpc.dist < s.wpc.dist ∧
      (∀ t, s'.mtx ≠ some (.client t)) := by
  have hmtx : s.wpc.owns = false → s.mtx = none := fun ho => by
    cases hmx : s.mtx with
    | none => rfl
    | some o =>
      cases o with
      | worker => rw [hi.wown.2 hmx] at ho; cases ho
      | client t => exact absurd hmx (hm t)
  unfold Doomed at hd
  cases hw : s.wpc <;> rw [hw] at hd hh hmtx <;> simp only [WPc.handling, WPc.owns] at hd hh hmtx <;>
    first | (cases hd; done) | (cases hh; done) | skip
  case checkRunning =>
    exact ⟨.worker, s.w .onStart, .inl rfl, by simp [step, worker, hw, hd.2.2], ⟨hd.1, hd.2.1⟩, by simp [WPc.dist, St.w], hm⟩
  case onStart =>
    exact ⟨.worker, (s.w .setRunning).emit .started, .inl rfl, by simp [step, worker, hw], hd, by simp [WPc.dist, St.w, St.emit], hm⟩
  case setRunning =>
    exact ⟨.worker, { s.w .loopTest with running := true }, .inl rfl, by simp [step, worker, hw], ⟨hd.1, hd.2, rfl⟩,
      by simp [WPc.dist, St.w], hm⟩
  case loopTest =>
    exact ⟨.worker, s.w .waitPred, .inl rfl, by simp [step, worker, hw, hd.2.2], ⟨hd.1, hd.2.1⟩, by simp [WPc.dist, St.w], hm⟩
  case waitPred =>
    exact ⟨.worker, s.w .testDiscard, .inl rfl, by simp [step, worker, hw, hd.1], hd, by simp [WPc.dist, St.w], hm⟩
  case sleeping =>
    exact ⟨.wake, s.w .waitPred, .inr rfl, by simp [step, hw], hd, by simp [WPc.dist, St.w], hm⟩
  case testDiscard =>
    exact ⟨.worker, s.w .innerPred, .inl rfl, by simp [step, worker, hw, hd.2], hd, by simp [WPc.dist, St.w], hm⟩
  case clearRelease =>
    exact ⟨.worker, { s.w .readStopped with mtx := none }, .inl rfl, by simp [step, worker, hw], hd, by simp [WPc.dist, St.w],
      by simp⟩
  case innerPred =>
    exact ⟨.worker, s.w .innerDiscard, .inl rfl, by simp [step, worker, hw, hd.1], hd, by simp [WPc.dist, St.w], hm⟩
  case innerDiscard =>
    exact ⟨.worker, s.w .popEnter, .inl rfl, by simp [step, worker, hw, hd.2], hd.1, by simp [WPc.dist, St.w], hm⟩
  case popEnter =>
    exact ⟨.worker, { s.w .popTake with mtx := some .worker }, .inl rfl, by simp [step, worker, hw, hmtx], hd,
      by simp [WPc.dist, St.w], by simp⟩
  case popTake =>
    obtain ⟨m, q', hq, _⟩ := hp.some s.queue hd
    exact ⟨.worker, { s.w (.popRelease m) with queue := q' }.emit (.taken m s.queue), .inl rfl, by simp [step, worker, hw, hq],
      (by unfold Doomed; trivial), by simp [WPc.dist, St.w, St.emit], hm⟩
  case popRelease m =>
    exact ⟨.worker, { s.w (.handle m) with mtx := none }, .inl rfl, by simp [step, worker, hw], (by unfold Doomed; trivial),
      by simp [WPc.dist, St.w], by simp⟩
  case readStopped =>
    exact ⟨.worker, { s.w .loopTest with running := !s.stopped }, .inl rfl, by simp [step, worker, hw],
      ⟨hd.1, hd.2.1, by simp [hd.2.2]⟩, by simp [WPc.dist, St.w], hm⟩

theorem doomed_crash {pick : Pick α} (hp : GoodPick pick) : ∀ (n : Nat) (d : DSt α), d.q.wpc.dist ≤ n → Inv d.q →
    (∀ t, d.q.mtx ≠ some (.client t)) → d.derived = false → d.pure = false → d.torn = false → Doomed d.q →
    ∃ sched d', (∀ a ∈ sched, a = .q .worker ∨ a = .q .wake) ∧ dexec pick d sched = some d' ∧ d'.pure = true := by
  intro n
  induction n with
  | zero =>
    intro d hn hi hm hder hpu hto hd
    cases hh : d.q.wpc.handling
    · obtain ⟨_, _, _, _, _, hlt, _⟩ := doomed_forward hp hi hm hh hd
      omega
    · exact ⟨[.q .worker], { d with pure := true }, by simp, by simp [dexec, dstep, dworker, hpu, hto, hder, hh], rfl⟩
  | succ n ih =>
    intro d hn hi hm hder hpu hto hd
    cases hh : d.q.wpc.handling
    · obtain ⟨a, s', ha, hs, hd', hlt, hm'⟩ := doomed_forward hp hi hm hh hd
      obtain ⟨b, hst⟩ : ∃ b, dstep pick d (.q a) = some { d with q := s', busy := b } := by
        rcases ha with rfl | rfl
        · simp only [step] at hs
          exact ⟨false, by simp [dstep, dworker, hpu, hto, hder, hh, hs]⟩
        · exact ⟨d.busy, by simp [dstep, hpu, hto, hs]⟩
      obtain ⟨sched, d', hall, he, hpure⟩ := ih { d with q := s', busy := b }
        (by show s'.wpc.dist ≤ n; omega) (inv_step hp hi a hs) hm' hder hpu hto hd'
      refine ⟨.q a :: sched, d', ?_, by rw [dexec, hst]; exact he, hpure⟩
      intro b hb
      rcases List.mem_cons.1 hb with rfl | hb
      · rcases ha with rfl | rfl <;> simp
      · exact hall b hb
    · exact ⟨[.q .worker], { d with pure := true }, by simp, by simp [dexec, dstep, dworker, hpu, hto, hder, hh], rfl⟩

/-- C134, exactly: let the derived class have just been destroyed without `safe_delete`, and let nobody use the queue any more.
The pure virtual `on_new_message` can be called, in some order of the remaining steps, if and only if the worker holds a
message or will look at one that waits. -/
theorem C134_exact (pick : Pick α) (hp : GoodPick pick) (d : DSt α) (h : DReach pick d) (ho : d.opc = .baseStop)
    (hpu : d.pure = false) (hto : d.torn = false) (hidle : ∀ t, d.q.cpc t = .idle) :
    (∃ sched d', (∀ a ∈ sched, a.isCall = false) ∧ dexec pick d sched = some d' ∧ d'.pure = true) ↔ Doomed d.q := by
  have hi := dreach_inv hp h
  have hder : d.derived = false := hi.der.2 (by rw [ho]; rfl)
  constructor
  · rintro ⟨sched, d', hA, hs, hpure⟩
    by_contra hn
    have := dexec_ind (P := fun d : DSt α => d.pure = false ∧ d.opc.broken = true ∧ d.derived = false ∧
      (∀ t, d.q.cpc t = .idle) ∧ ¬ Doomed d.q) (A := fun a => a.isCall = false)
      (fun d a d' ⟨_, h2, h3, h4, h5⟩ ha hs => doomed_step hp h2 h3 h4 ha hs h5) sched d d'
      ⟨hpu, by rw [ho]; rfl, hder, hidle, hn⟩ hA hs
    rw [hpure] at this
    cases this.1
  · intro hd
    have hinv := hi.inv (by rw [ho]; simp)
    obtain ⟨sched, d', hA, hs, hpure⟩ := doomed_crash hp _ d (Nat.le_refl _) hinv
      (fun t hm => by have := (hinv.cown t).2 hm; rw [hidle t] at this; cases this) hder hpu hto hd
    exact ⟨sched, d', fun a ha => by rcases hA a ha with rfl | rfl <;> rfl, hs, hpure⟩

/-- C134: in particular a queue that is empty when the derived class is destroyed, whose worker holds no message and that
nobody uses any more, is destroyed safely even without `safe_delete`. -/
theorem C134_empty_partial (pick : Pick α) (hp : GoodPick pick) (d : DSt α) (h : DReach pick d) (ho : d.opc = .baseStop)
    (hpu : d.pure = false) (hto : d.torn = false) (hidle : ∀ t, d.q.cpc t = .idle) (hq : d.q.queue = [])
    (hf : d.q.wpc.inflight = []) (sched : List (DAct α)) (d' : DSt α) (hA : ∀ a ∈ sched, a.isCall = false)
    (hs : dexec pick d sched = some d') : d'.pure = false := by
  cases hpure : d'.pure
  · rfl
  · have hd := (C134_exact pick hp d h ho hpu hto hidle).1 ⟨sched, d', hA, hs, hpure⟩
    unfold Doomed at hd
    cases hw : d.q.wpc <;> rw [hw] at hd hf <;> simp_all [WPc.inflight]

/-! #### The destruction comes to an end -/

/-- How far the worker of a stopped queue is from its end. -/
def St.left (s : St α) : Nat :=
  10 * s.queue.length + match s.wpc with
  | .checkRunning => 60
  | .throwing => 1
  | .onStart => 59
  | .setRunning => 58
  | .loopTest => if s.running then 57 else 3
  | .waitPred => 56
  | .sleeping => 55
  | .testDiscard => 54
  | .clearFlag => 53
  | .clearEnter => 52
  | .clearLoop => 51
  | .clearRelease => 50
  | .innerPred => 40
  | .innerDiscard => 39
  | .popEnter => 38
  | .popTake => 37
  | .popRelease _ => 46
  | .handle _ => 45
  | .readStopped => 4
  | .onStop => 2
  | _ => 0

theorem left_step {pick : Pick α} (hp : GoodPick pick) {s : St α} (hi : Inv s) (hm : ∀ t, s.mtx ≠ some (.client t))
    (hst : s.stopped = true) (hov : s.wpc.over = false) :
    ∃ a s', (a = .worker ∨ a = .timeout) ∧ step pick s a = some s' ∧ s'.left < s.left ∧ s'.stopped = true ∧
      (∀ t, s'.mtx ≠ some (.client t)) := by
  have hmtx : s.wpc.owns = false → s.mtx = none := fun ho => by
    cases hmx : s.mtx with
    | none => rfl
    | some o =>
      cases o with
      | worker => rw [hi.wown.2 hmx] at ho; cases ho
      | client t => exact absurd hmx (hm t)
  have hal := hi.alive
  cases hw : s.wpc <;> rw [hw] at hmtx hal hov <;> simp only [WPc.owns, WPc.dead, WPc.over] at hmtx hal hov <;>
    first | (cases hal; done) | (cases hov; done) | skip
  case checkRunning =>
    refine ⟨.worker, _, .inl rfl, by simp only [step, worker, hw]; rfl, ?_, ?_, ?_⟩ <;>
      (split <;> simp_all [St.left, St.w])
  case onStart => exact ⟨.worker, (s.w .setRunning).emit .started, .inl rfl, by simp [step, worker, hw], by simp [St.left, St.w, St.emit, hw], hst, hm⟩
  case setRunning =>
    exact ⟨.worker, { s.w .loopTest with running := true }, .inl rfl, by simp [step, worker, hw], by simp [St.left, St.w, hw], hst, hm⟩
  case loopTest =>
    refine ⟨.worker, _, .inl rfl, by simp only [step, worker, hw]; rfl, ?_, ?_, ?_⟩ <;>
      (split <;> simp_all [St.left, St.w])
  case waitPred =>
    refine ⟨.worker, _, .inl rfl, by simp only [step, worker, hw]; rfl, ?_, ?_, ?_⟩ <;>
      (split <;> simp_all [St.left, St.w])
  case sleeping => exact ⟨.timeout, s.w .testDiscard, .inr rfl, by simp [step, hw], by simp [St.left, St.w, hw], hst, hm⟩
  case testDiscard =>
    refine ⟨.worker, _, .inl rfl, by simp only [step, worker, hw]; rfl, ?_, ?_, ?_⟩ <;>
      (split <;> simp_all [St.left, St.w])
  case clearFlag =>
    exact ⟨.worker, { s.w .clearEnter with discard := false }, .inl rfl, by simp [step, worker, hw], by simp [St.left, St.w, hw], hst, hm⟩
  case clearEnter =>
    exact ⟨.worker, { s.w .clearLoop with mtx := some .worker }, .inl rfl, by simp [step, worker, hw, hmtx],
      by simp [St.left, St.w, hw], hst, by simp⟩
  case clearLoop =>
    by_cases hq : s.queue = []
    · exact ⟨.worker, s.w .clearRelease, .inl rfl, by simp [step, worker, hw, hq], by simp [St.left, St.w, hw], hst, hm⟩
    · obtain ⟨m, q', hq', hperm⟩ := hp.some s.queue hq
      refine ⟨.worker, { s with queue := q' }.emit (.discarded m), .inl rfl, by simp [step, worker, hw, hq, hq'], ?_, hst, hm⟩
      have := hperm.length_eq
      simp [St.left, St.emit, hw]
      simp at this
      omega
  case clearRelease =>
    exact ⟨.worker, { s.w .readStopped with mtx := none }, .inl rfl, by simp [step, worker, hw], by simp [St.left, St.w, hw], hst, by simp⟩
  case innerPred =>
    refine ⟨.worker, _, .inl rfl, by simp only [step, worker, hw]; rfl, ?_, ?_, ?_⟩ <;>
      (split <;> simp_all [St.left, St.w, St.emit])
  case innerDiscard =>
    refine ⟨.worker, _, .inl rfl, by simp only [step, worker, hw]; rfl, ?_, ?_, ?_⟩ <;>
      (split <;> simp_all [St.left, St.w])
  case popEnter =>
    exact ⟨.worker, { s.w .popTake with mtx := some .worker }, .inl rfl, by simp [step, worker, hw, hmtx],
      by simp [St.left, St.w, hw], hst, by simp⟩
  case popTake =>
    obtain ⟨m, q', hq', hperm⟩ := hp.some s.queue (hi.saw (by rw [hw]; rfl))
    refine ⟨.worker, { s.w (.popRelease m) with queue := q' }.emit (.taken m s.queue), .inl rfl,
      by simp [step, worker, hw, hq'], ?_, hst, hm⟩
    have := hperm.length_eq
    simp [St.left, St.emit, St.w, hw]
    simp at this
    omega
  case popRelease m =>
    exact ⟨.worker, { s.w (.handle m) with mtx := none }, .inl rfl, by simp [step, worker, hw], by simp [St.left, St.w, hw], hst, by simp⟩
  case handle m =>
    exact ⟨.worker, (s.w .innerPred).emit (.processed m), .inl rfl, by simp [step, worker, hw], by simp [St.left, St.w, St.emit, hw],
      hst, hm⟩
  case readStopped =>
    exact ⟨.worker, { s.w .loopTest with running := !s.stopped }, .inl rfl, by simp [step, worker, hw], by simp [St.left, St.w, hw, hst],
      hst, hm⟩
  case onStop =>
    exact ⟨.worker, (s.w .finished).emit .stopped, .inl rfl, by simp [step, worker, hw], by simp [St.left, St.w, St.emit, hw], hst, hm⟩

def DAct.ownWorker : DAct α → Bool
  | .q .worker | .q .timeout | .owner => true
  | _ => false

theorem polite_finish {pick : Pick α} (hp : GoodPick pick) : ∀ (n : Nat) (d : DSt α), d.q.left ≤ n → Inv d.q →
    (∀ t, d.q.mtx ≠ some (.client t)) → d.q.stopped = true → d.derived = true → d.pure = false → d.torn = false →
    (d.busy = true → d.q.wpc.callback = true) →
    ∃ sched d', (∀ a ∈ sched, a.ownWorker = true) ∧ dexec pick d sched = some d' ∧ d'.q.wpc.over = true ∧
      d'.opc = d.opc ∧ d'.pure = false ∧ d'.torn = false ∧ d'.busy = false := by
  intro n
  induction n with
  | zero =>
    intro d hn hi hm hst hder hpu hto hb
    cases hov : d.q.wpc.over
    · obtain ⟨_, _, _, _, hlt, _⟩ := left_step hp hi hm hst hov
      omega
    · refine ⟨[], d, by simp, rfl, hov, rfl, hpu, hto, ?_⟩
      cases hbu : d.busy
      · rfl
      · have := hb hbu
        cases hw : d.q.wpc <;> rw [hw] at hov this <;> first | (cases hov; done) | cases this
  | succ n ih =>
    intro d hn hi hm hst hder hpu hto hb
    cases hov : d.q.wpc.over
    · obtain ⟨a, s', ha, hs, hlt, hst', hm'⟩ := left_step hp hi hm hst hov
      have hi' := inv_step hp hi a hs
      obtain ⟨l, hl, hst⟩ : ∃ l : List (DAct α), (∀ a ∈ l, a.ownWorker = true) ∧
          dexec pick d l = some { d with q := s', busy := false } := by
        rcases ha with rfl | rfl
        · simp only [step] at hs
          cases hc : (d.q.wpc.callback && d.derived && !d.busy)
          · refine ⟨[.q .worker], by simp [DAct.ownWorker], ?_⟩
            have hnh : (d.q.wpc.handling && !d.derived) = false := by simp [hder]
            simp [dexec, dstep, dworker, hpu, hto, hc, hnh, hs]
          · refine ⟨[.q .worker, .q .worker], by simp [DAct.ownWorker], ?_⟩
            simp only [Bool.and_eq_true, Bool.not_eq_true'] at hc
            simp [dexec, dstep, dworker, hpu, hto, hder, hc.1.1, hc.2, hs]
        · refine ⟨[.q .timeout], by simp [DAct.ownWorker], ?_⟩
          have hbu : d.busy = false := by
            cases hbu : d.busy
            · rfl
            · have := hb hbu
              simp only [step] at hs
              split at hs
              · next e => rw [e] at this; cases this
              · cases hs
          simp [dexec, dstep, hpu, hto, hs]
          exact hbu
      obtain ⟨sched, d', hall, he, hrest⟩ := ih { d with q := s', busy := false }
        (by show s'.left ≤ n; omega) hi' hm' hst' hder hpu hto (by simp)
      refine ⟨l ++ sched, d', ?_, by rw [dexec_append, hst]; exact he, hrest⟩
      intro b hb
      rcases List.mem_append.1 hb with hb | hb
      · exact hl b hb
      · exact hall b hb
    · refine ⟨[], d, by simp, rfl, hov, rfl, hpu, hto, ?_⟩
      cases hbu : d.busy
      · rfl
      · have := hb hbu
        cases hw : d.q.wpc <;> rw [hw] at hov this <;> first | (cases hov; done) | cases this

/-- C134: `safe_delete` in the destructor of the derived class comes to an end, however many messages are waiting: once it has
been called and nobody uses the queue any more, steps of the worker and of the owner lead to the end of the object. -/
theorem C134_ends (pick : Pick α) (hp : GoodPick pick) (d : DSt α) (h : DReach pick d) (ho : d.opc = .politeStop)
    (hpu : d.pure = false) (hto : d.torn = false) (hidle : ∀ t, d.q.cpc t = .idle) :
    ∃ sched d', (∀ a ∈ sched, a.ownWorker = true) ∧ dexec pick d sched = some d' ∧ d'.opc = .gone ∧ d'.pure = false ∧
      d'.torn = false := by
  have hi := dreach_inv hp h
  have hder : d.derived = true := by
    cases hd : d.derived
    · have := hi.der.1 hd; rw [ho] at this; cases this
    · rfl
  have hinv := hi.inv (by rw [ho]; simp)
  obtain ⟨sched, d', hall, he, hov, hop, hp', ht', hb'⟩ := polite_finish hp _
    { d with q := { d.q with stopped := true }, opc := .politeJoin } (Nat.le_refl _) (inv_stopped hinv true)
    (fun t hm => by have := (hinv.cown t).2 hm; rw [hidle t] at this; cases this) rfl hder hpu hto hi.busy
  refine ⟨.owner :: (sched ++ [.owner, .owner, .owner, .owner, .owner]),
    { d' with q := { d'.q with stopped := true, queue := [] }, opc := .gone, derived := false, torn := false }, ?_, ?_, rfl, hp', rfl⟩
  · intro a ha
    simp only [List.mem_cons, List.mem_append, List.not_mem_nil, or_false] at ha
    rcases ha with rfl | ha | rfl | rfl | rfl | rfl | rfl
    · rfl
    · exact hall a ha
    all_goals rfl
  · have h1 : dstep pick d .owner = some { d with q := { d.q with stopped := true }, opc := .politeJoin } := by
      simp [dstep, hpu, hto, downer, ho]
    rw [dexec, h1, Option.bind_some, dexec_append, he]
    simp [dexec, dstep, downer, hop, hp', ht', hb', hov]

/-- A derived class that calls `safe_delete`: the message waiting is processed and the object is gone. -/
example :
    (dexec pickFront (dinit : DSt Nat) ([.q .start] ++ List.replicate 6 (.q .worker) ++
      [.q (.call 1 (.receive 10)), .q (.client 1), .q (.client 1), .q (.client 1), .q (.client 1),
       .destroy true, .owner, .q .wake] ++ List.replicate 14 (.q .worker) ++ List.replicate 5 .owner)).map
      (fun d => (d.pure, d.torn, d.opc, d.q.wpc, processed d.q.log)) =
    some (false, false, .gone, .finished, [10]) := by decide +kernel

/-- An idle queue destroyed without it. -/
example :
    (dexec pickFront (dinit : DSt Nat) ([.q .start] ++ List.replicate 6 (.q .worker) ++
      [.destroy false, .owner, .owner, .q .timeout] ++ List.replicate 5 (.q .worker) ++ List.replicate 2 .owner)).map
      (fun d => (d.pure, d.torn, d.opc, d.q.wpc)) =
    some (false, false, .gone, .finished) := by decide +kernel

end Verif.MsgQueue
