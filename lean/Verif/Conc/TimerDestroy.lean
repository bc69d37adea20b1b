import Verif.Conc.TimerWake

/-
The end of a timer: concurrency/timer.h:37-42, 53-60, 83-87 and 177-190, and C135.

The transition system of TimerModel.lean, in which client 0 is the owner of the timer.  The owner destroys it while the
thread may be anywhere in `run`.

* The derived class is destroyed first.  Its destructor may begin with `safe_delete` (`polite`), as the comment at
  timer.h:79-82 asks of those who override `on_start` or `on_stop`; the library's own `timer_t` (177-190) has no destructor.
* Once it is destroyed, `on_interval` is the pure virtual function of timer.h:45; calling it ends the program.  `on_start` and
  `on_stop` are the empty functions of timer.h:98 and 110; `run` is `base_timer_t`'s own.
* If the derived class is destroyed while one of its functions is being executed by the thread, it executes on destroyed members
  (`torn`): for `timer_t`, on a destroyed `std::function`.
* Then `~base_timer_t` marks the object as deleted, calls `stop` and `join`, and the object is gone.
* Other clients may do what they like until the object is gone; the thread continues even then if it has not returned.
-/

namespace Verif.Timer

/-- The owner. -/
inductive OPc where
  | alive
  | politeStop | politeJoin        -- 85-86, called by the destructor of the derived class
  | vanish                         -- the members of the derived class are destroyed
  | baseMark                       -- 38-40
  | baseStop | baseJoin            -- 41, 85-86
  | gone
  deriving DecidableEq, Repr

structure DSt where
  t       : St
  opc     : OPc
  derived : Bool                   -- the derived class exists
  busy    : Bool                   -- the thread executes the `on_start` or `on_stop` of the derived class
  torn    : Bool                   -- the derived class has been destroyed during one of its functions
  pure    : Bool                   -- a pure virtual function has been called

inductive DAct where
  | t (a : Act)
  | destroy (polite : Bool)        -- the owner begins the destruction
  | owner                          -- the next step of it
  deriving DecidableEq, Repr

def dinit (ms : Nat) : DSt := { t := init ms, opc := .alive, derived := true, busy := false, torn := false, pure := false }

/-- There is no thread inside `run`. -/
def Pc.over : Pc → Bool
  | .idle | .finished => true
  | _ => false

/-- The thread is about to call `on_start` or `on_stop`, 156-158 and 164-166. -/
def St.hook (s : St) : Bool :=
  match s.pc with
  | .startBody | .stopBody => !s.deleted
  | _ => false

/-- One step of the thread on an object that may be incomplete. -/
def dthread (d : DSt) : Option DSt :=
  if d.t.hook && d.derived && !d.busy then some { d with busy := true }
  else if d.t.pc = .call ∧ d.derived = false then some { d with pure := true }
  else (thread d.t).map fun t => { d with t := t, busy := false }

/-- One step of the owner.  The functions called are executed by client 0. -/
def downer (d : DSt) : Option DSt :=
  if d.t.cpc 0 = .idle then
    match d.opc with
    | .alive | .gone => none
    | .politeStop => some { d with t := d.t.c 0 .stopStore, opc := .politeJoin }
    | .politeJoin => if d.t.pc.over then some { d with opc := .vanish } else none
    | .vanish => some { d with opc := .baseMark, derived := false, torn := d.busy || decide (d.t.pc = .inCall) }
    | .baseMark => some { d with t := d.t.c 0 .deleteLock, opc := .baseStop }
    | .baseStop => some { d with t := d.t.c 0 .stopStore, opc := .baseJoin }
    | .baseJoin => if d.t.pc.over then some { d with opc := .gone } else none
  else none

def DSt.lift (d : DSt) (a : Act) : Option DSt := (step d.t a).map fun t => { d with t := t }

/-- One step; nothing is said about what follows a call of a pure virtual function or a torn callback. -/
def dstep (d : DSt) (a : DAct) : Option DSt :=
  if d.pure || d.torn then none
  else match a with
  | .t .start => if d.opc = .alive then d.lift .start else none
  | .t .thread => dthread d
  | .t (.call t op) => if d.opc = .gone ∨ (t = 0 ∧ d.opc ≠ .alive) then none else d.lift (.call t op)
  | .t (.client t) => if d.opc = .gone then none else d.lift (.client t)
  | .t a => d.lift a
  | .destroy polite =>
    if d.opc = .alive ∧ d.t.cpc 0 = .idle then some { d with opc := if polite then .politeStop else .vanish } else none
  | .owner => downer d

def dexec (d : DSt) : List DAct → Option DSt
  | [] => some d
  | a :: as => (dstep d a).bind fun d' => dexec d' as

def DReach (ms : Nat) (d : DSt) : Prop := ∃ sched, dexec (dinit ms) sched = some d

/-- The executions in which the derived class's destructor begins with `safe_delete`. -/
def Polite (sched : List DAct) : Prop := DAct.destroy false ∉ sched

theorem dexec_append (d : DSt) (l1 l2 : List DAct) :
    dexec d (l1 ++ l2) = (dexec d l1).bind fun d' => dexec d' l2 := by
  induction l1 generalizing d with
  | nil => rfl
  | cons a as ih =>
    simp only [List.cons_append, dexec]
    cases dstep d a <;> simp [ih]

theorem dexec_ind {P : DSt → Prop} {A : DAct → Prop} (hstep : ∀ d a d', P d → A a → dstep d a = some d' → P d') :
    ∀ (sched : List DAct) (d d' : DSt), P d → (∀ a ∈ sched, A a) → dexec d sched = some d' → P d' := by
  intro sched
  induction sched with
  | nil => intro d d' h _ hs; injection hs with hs; subst hs; exact h
  | cons l ls ih =>
    intro d d' h hA hs
    simp only [dexec] at hs
    cases hst : dstep d l with
    | none => rw [hst] at hs; cases hs
    | some d1 =>
      rw [hst] at hs
      exact ih d1 d' (hstep d l d1 h (hA l (by simp)) hst) (fun a ha => hA a (by simp [ha])) hs

/-- The kinds of steps. -/
inductive DCase (d d' : DSt) : DAct → Prop where
  | env (b : Act) (s : St) (hw : b ≠ .thread) (hst : b = .start → d.opc = .alive)
      (hc : ∀ op, b = .call 0 op → d.opc = .alive) (hq : step d.t b = some s) (e : d' = { d with t := s }) : DCase d d' (.t b)
  | enter (hc : d.t.hook = true) (hd : d.derived = true) (e : d' = { d with busy := true }) : DCase d d' (.t .thread)
  | crash (hc : d.t.pc = .call) (hd : d.derived = false) (e : d' = { d with pure := true }) : DCase d d' (.t .thread)
  | move (s : St) (hh : d.t.pc = .call → d.derived = true) (hw : thread d.t = some s)
      (e : d' = { d with t := s, busy := false }) : DCase d d' (.t .thread)
  | destroy (polite : Bool) (ha : d.opc = .alive)
      (e : d' = { d with opc := if polite then .politeStop else .vanish }) : DCase d d' (.destroy polite)
  | owner (hi : d.t.cpc 0 = .idle) (ho : downer d = some d') : DCase d d' .owner

theorem dstep_case {d d' : DSt} {a : DAct} (hs : dstep d a = some d') :
    d.pure = false ∧ d.torn = false ∧ DCase d d' a := by
  unfold dstep at hs
  split at hs
  · cases hs
  next hpt =>
  simp only [Bool.or_eq_true, not_or, Bool.not_eq_true] at hpt
  refine ⟨hpt.1, hpt.2, ?_⟩
  cases a with
  | destroy p =>
    simp only at hs
    split at hs
    · next ha => injection hs with hs; exact .destroy p ha.1 hs.symm
    · cases hs
  | owner =>
    refine .owner ?_ hs
    simp only [downer] at hs
    split at hs
    · assumption
    · cases hs
  | t a =>
    cases a <;> simp only [dthread, DSt.lift] at hs
    case thread =>
      split at hs
      · next hc =>
        injection hs with hs
        simp only [Bool.and_eq_true] at hc
        exact .enter hc.1.1 hc.1.2 hs.symm
      · split at hs
        · next hc =>
          injection hs with hs
          exact .crash hc.1 hc.2 hs.symm
        · next hc =>
          rw [Option.map_eq_some_iff] at hs
          obtain ⟨q, hq, e⟩ := hs
          refine .move q (fun hh => ?_) hq e.symm
          cases hd : d.derived
          · exact absurd ⟨hh, hd⟩ hc
          · rfl
    case start =>
      split at hs
      · next ha =>
        rw [Option.map_eq_some_iff] at hs
        obtain ⟨q, hq, e⟩ := hs
        exact .env _ q (by simp) (fun _ => ha) (by simp) hq e.symm
      · cases hs
    case call t op =>
      split at hs
      · cases hs
      · next hn =>
        rw [Option.map_eq_some_iff] at hs
        obtain ⟨q, hq, e⟩ := hs
        refine .env _ q (by simp) (by simp) (fun op' e' => ?_) hq e.symm
        injection e' with e1 e2
        subst e1
        by_contra hne
        exact hn (.inr ⟨rfl, hne⟩)
    case client t =>
      split at hs
      · cases hs
      · rw [Option.map_eq_some_iff] at hs
        obtain ⟨q, hq, e⟩ := hs
        exact .env _ q (by simp) (by simp) (by simp) hq e.symm
    all_goals
      rw [Option.map_eq_some_iff] at hs
      obtain ⟨q, hq, e⟩ := hs
      exact .env _ q (by simp) (by simp) (by simp) hq e.symm

/-- What the owner does to the timer is what a client may do. -/
theorem owner_step {d d' : DSt} (ho : downer d = some d') : d'.t = d.t ∨ ∃ op, step d.t (.call 0 op) = some d'.t := by
  simp only [downer] at ho
  split at ho
  · next hi =>
    split at ho <;> try split at ho
    all_goals try (cases ho; done)
    all_goals
      injection ho with ho
      subst ho
    · exact .inr ⟨.stop, by simp [step, hi, entry]⟩
    · exact .inl rfl
    · exact .inl rfl
    · exact .inr ⟨.delete, by simp [step, hi, entry]⟩
    · exact .inr ⟨.stop, by simp [step, hi, entry]⟩
    · exact .inl rfl
  · cases ho

/-- Every step is a step of the timer, or leaves it alone. -/
theorem dstep_t {d d' : DSt} {a : DAct} (hs : dstep d a = some d') : d'.t = d.t ∨ ∃ b, step d.t b = some d'.t := by
  obtain ⟨_, _, hc⟩ := dstep_case hs
  cases hc with
  | env b s _ _ _ hq e => subst e; exact .inr ⟨b, hq⟩
  | enter _ _ e => subst e; exact .inl rfl
  | crash _ _ e => subst e; exact .inl rfl
  | move s _ hw e => subst e; exact .inr ⟨.thread, hw⟩
  | destroy _ _ e => subst e; exact .inl rfl
  | owner _ ho =>
    rcases owner_step ho with h | ⟨op, h⟩
    · exact .inl h
    · exact .inr ⟨_, h⟩

theorem dreach_reach {ms : Nat} {d : DSt} (h : DReach ms d) : Reach ms d.t := by
  obtain ⟨sched, hs⟩ := h
  refine dexec_ind (P := fun d => Reach ms d.t) (A := fun _ => True) ?_ sched _ _ ⟨[], rfl⟩ (fun _ _ => trivial) hs
  intro d a d' ⟨l, hl⟩ _ hst
  rcases dstep_t hst with e | ⟨b, hb⟩
  · exact ⟨l, by rw [e]; exact hl⟩
  · exact ⟨l ++ [b], by rw [exec_append, hl]; simp [exec, hb]⟩

/-! ### Invariants -/

def OPc.broken : OPc → Bool
  | .baseMark | .baseStop | .baseJoin | .gone => true
  | _ => false

structure DestroyInv (d : DSt) : Prop where
  der  : d.derived = false ↔ d.opc.broken = true
  join : d.opc = .gone → d.t.pc.over = true
  busy : d.busy = true → d.t.pc = .startBody ∨ d.t.pc = .stopBody

theorem thread_over {s : St} (h : s.pc.over = true) : thread s = none := by
  unfold thread
  cases hw : s.pc <;> rw [hw] at h <;> first | rfl | cases h

theorem env_pc {s s' : St} {a : Act} (hs : step s a = some s') (hw : a ≠ .thread) :
    s'.pc = s.pc ∨ (a = .start ∧ s.pc.over = true) ∨ (∃ v, a = .ret v ∧ s.pc = .inCall ∧ s'.pc = .clearForced) ∨
    (s.pc = .waiting ∧ (s'.pc = .relock true ∨ s'.pc = .relock false)) := by
  rcases pc_step hs with h | ⟨h, _⟩ | ⟨h, _⟩ | h | ⟨h, h'⟩
  · exact .inl h
  · exact absurd h hw
  · refine .inr (.inl ⟨h, ?_⟩)
    subst h
    simp only [step] at hs
    split at hs
    · next ho => rcases ho with ho | ho <;> rw [ho] <;> rfl
    · cases hs
  · exact .inr (.inr (.inl h))
  · exact .inr (.inr (.inr ⟨h, h'.imp (·.2) (·.2)⟩))

theorem over_env {s s' : St} {a : Act} (hs : step s a = some s') (hw : a ≠ .thread) (hst : a ≠ .start)
    (ho : s.pc.over = true) : s'.pc.over = true := by
  rcases env_pc hs hw with e | ⟨e, _⟩ | ⟨_, _, e, _⟩ | ⟨e, _⟩
  · rw [e]; exact ho
  · exact absurd e hst
  · rw [e] at ho; cases ho
  · rw [e] at ho; cases ho

theorem destroy_step {d d' : DSt} {a : DAct} (h : DestroyInv d) (hs : dstep d a = some d') : DestroyInv d' := by
  obtain ⟨_, _, hc⟩ := dstep_case hs
  cases hc with
  | env b s hw hst hcl hq e =>
    subst e
    refine ⟨h.der, fun hg => ?_, fun hb => ?_⟩
    · refine over_env hq hw (fun e => ?_) (h.join hg)
      have := hst e
      rw [this] at hg; cases hg
    · have hb' := h.busy hb
      rcases env_pc hq hw with e | ⟨_, e⟩ | ⟨_, _, e, _⟩ | ⟨e, _⟩
      · show s.pc = _ ∨ s.pc = _
        rw [e]; exact hb'
      all_goals rcases hb' with hb' | hb' <;> rw [hb'] at e <;> cases e
  | enter hc hd e =>
    subst e
    refine ⟨h.der, h.join, fun _ => ?_⟩
    unfold St.hook at hc
    split at hc
    · next e => exact .inl e
    · next e => exact .inr e
    · cases hc
  | crash _ _ e => subst e; exact ⟨h.der, h.join, h.busy⟩
  | move s _ hw e =>
    subst e
    refine ⟨h.der, fun hg => ?_, by simp⟩
    rw [thread_over (h.join hg)] at hw
    cases hw
  | destroy p ha e =>
    subst e
    have hd := h.der
    rw [ha] at hd
    exact ⟨by cases p <;> simpa [OPc.broken] using hd, by cases p <;> simp, h.busy⟩
  | owner hi ho =>
    have hd := h.der
    simp only [downer, if_pos hi] at ho
    split at ho <;> try split at ho
    all_goals try (cases ho; done)
    all_goals
      injection ho with ho
      subst ho
    · next e => rw [e] at hd; exact ⟨by simpa [OPc.broken] using hd, by simp, h.busy⟩
    · next e _ => rw [e] at hd; exact ⟨by simpa [OPc.broken] using hd, by simp, h.busy⟩
    · exact ⟨by simp [OPc.broken], by simp, h.busy⟩
    · next e => rw [e] at hd; exact ⟨by simpa [OPc.broken] using hd, by simp, h.busy⟩
    · next e => rw [e] at hd; exact ⟨by simpa [OPc.broken] using hd, by simp, h.busy⟩
    · next e hov => rw [e] at hd; exact ⟨by simpa [OPc.broken] using hd, fun _ => hov, h.busy⟩

theorem destroy_init (ms : Nat) : DestroyInv (dinit ms) :=
  ⟨by simp [dinit, OPc.broken], by simp [dinit], by simp [dinit]⟩

theorem destroy_inv {ms : Nat} {d : DSt} (h : DReach ms d) : DestroyInv d := by
  obtain ⟨sched, hs⟩ := h
  exact dexec_ind (P := DestroyInv) (A := fun _ => True) (fun _ _ _ hi _ hs => destroy_step hi hs) sched _ _ (destroy_init ms)
    (fun _ _ => trivial) hs

/-! ### C135 -/

/-- C135 as one would like to have it: whenever the timer is destroyed, no pure virtual function is called, no function of the
derived class is interrupted by the destruction, and there is no thread left when the object is gone. -/
def C135_statement : Prop :=
  ∀ ms d, DReach ms d → d.pure = false ∧ d.torn = false ∧ (d.opc = .gone → d.t.pc.over = true)

/-- A timer of 100 ms is started; it is stopped when its first interval is over; and it is destroyed. -/
def destroySched : List DAct :=
  [.t .start] ++ List.replicate 4 (.t .thread) ++ List.replicate 6 (.t .thread) ++ [.t (.tick 100000000), .t .timeout] ++
    List.replicate 3 (.t .thread) ++ [.t (.call 0 .stop), .t (.client 0), .t (.client 0), .t (.client 0)] ++
    [.destroy false, .owner, .t .thread]

/-- C135 does not hold for the library's `timer_t`: `stop` has returned, and destroying the timer still leads to a call of the
pure virtual `on_interval`. -/
theorem C135_counterexample : ¬ C135_statement := by
  intro h
  have hk : (dexec (dinit 100) destroySched).map (fun d => (d.pure, d.opc, d.t.pc, d.t.isRunning)) =
      some (true, .baseMark, .call, false) := by decide +kernel
  cases hs : dexec (dinit 100) destroySched with
  | none => rw [hs] at hk; cases hk
  | some d =>
    rw [hs] at hk
    simp only [Option.map_some, Option.some.injEq, Prod.mk.injEq] at hk
    have := (h 100 d ⟨_, hs⟩).1
    rw [hk.1] at this
    cases this

/-- C135: nor is `on_interval` waited for before what it works on is destroyed; for `timer_t` that is the `std::function` being
executed. -/
theorem C135_counterexample_torn : ∃ d, DReach 100 d ∧ d.torn = true ∧ d.t.pc = .inCall := by
  have hk : (dexec (dinit 100) ([.t .start] ++ List.replicate 10 (.t .thread) ++ [.t (.tick 100000000), .t .timeout] ++
    List.replicate 4 (.t .thread) ++ [.destroy false, .owner])).map (fun d => (d.torn, d.t.pc)) =
      some (true, .inCall) := by decide +kernel
  cases hs : dexec (dinit 100) ([.t .start] ++ List.replicate 10 (.t .thread) ++ [.t (.tick 100000000), .t .timeout] ++
    List.replicate 4 (.t .thread) ++ [.destroy false, .owner]) with
  | none => rw [hs] at hk; cases hk
  | some d =>
    rw [hs] at hk
    simp only [Option.map_some, Option.some.injEq, Prod.mk.injEq] at hk
    exact ⟨d, ⟨_, hs⟩, hk⟩

/-- C135: the destructor waits for the thread in any case: when the object is gone there is no thread inside `run`, and no step
of the thread, of the owner or of a client can touch the object. -/
theorem C135_joined (ms : Nat) (d : DSt) (h : DReach ms d) (hg : d.opc = .gone) :
    d.t.pc.over = true ∧ dstep d (.t .thread) = none ∧ dstep d (.t .start) = none ∧ dstep d .owner = none ∧
    ∀ t op, dstep d (.t (.call t op)) = none ∧ dstep d (.t (.client t)) = none := by
  have hov := (destroy_inv h).join hg
  have h1 : d.t.hook = false := by
    unfold St.hook
    cases hw : d.t.pc <;> rw [hw] at hov <;> first | rfl | cases hov
  have h2 : d.t.pc ≠ .call := fun e => by rw [e] at hov; cases hov
  refine ⟨hov, ?_, ?_, ?_, fun t op => ⟨?_, ?_⟩⟩
  · simp [dstep, dthread, h1, h2, thread_over hov]
  · simp [dstep, hg]
  · simp [dstep, downer, hg]
  · simp [dstep, hg]
  · simp [dstep, hg]

/-! #### The derived class waits for its thread -/

def OPc.late : OPc → Bool
  | .vanish | .baseMark | .baseStop | .baseJoin | .gone => true
  | _ => false

/-- From the destruction of the derived class on, there is no thread. -/
structure Quiet (d : DSt) : Prop where
  pure : d.pure = false
  torn : d.torn = false
  inv  : DestroyInv d
  over : d.opc.late = true → d.t.pc.over = true

theorem quiet_step {d d' : DSt} {a : DAct} (h : Quiet d) (ha : a = .destroy false → d.t.pc.over = true)
    (hs : dstep d a = some d') : Quiet d' := by
  obtain ⟨h1, h2, hi, hl⟩ := h
  have hi' := destroy_step hi hs
  obtain ⟨_, _, hc⟩ := dstep_case hs
  have hb : d.t.pc.over = true → (d.busy || decide (d.t.pc = .inCall)) = false := fun ho => by
    cases hb : d.busy
    · cases hw : d.t.pc <;> rw [hw] at ho <;> first | rfl | cases ho
    · rcases hi.busy hb with e | e <;> rw [e] at ho <;> cases ho
  cases hc with
  | env b s hw hal _ hq e =>
    subst e
    refine ⟨h1, h2, hi', fun hlt => ?_⟩
    refine over_env hq hw (fun e => ?_) (hl hlt)
    have := hal e
    simp only [this, OPc.late] at hlt
    cases hlt
  | enter hc hd e => subst e; exact ⟨h1, h2, hi', hl⟩
  | crash hc hd e =>
    have hbr := hi.der.1 hd
    have hov := hl (by cases ho : d.opc <;> rw [ho] at hbr <;> first | rfl | cases hbr)
    rw [hc] at hov
    cases hov
  | move q hh hw e =>
    subst e
    refine ⟨h1, h2, hi', fun hlt => ?_⟩
    rw [thread_over (hl hlt)] at hw
    cases hw
  | destroy p hal e =>
    subst e
    cases p
    · exact ⟨h1, h2, hi', fun _ => ha rfl⟩
    · exact ⟨h1, h2, hi', by simp [OPc.late]⟩
  | owner hi0 ho =>
    simp only [downer, if_pos hi0] at ho
    split at ho <;> try split at ho
    all_goals try (cases ho; done)
    all_goals
      injection ho with ho
      subst ho
    · exact ⟨h1, h2, hi', by simp [OPc.late]⟩
    · next hov => exact ⟨h1, h2, hi', fun _ => hov⟩
    · next ho =>
      have hov := hl (by rw [ho]; rfl)
      exact ⟨h1, hb hov, hi', fun _ => hov⟩
    · next ho => exact ⟨h1, h2, hi', fun _ => hl (by rw [ho]; rfl)⟩
    · next ho => exact ⟨h1, h2, hi', fun _ => hl (by rw [ho]; rfl)⟩
    · next hov => exact ⟨h1, h2, hi', fun _ => hov⟩

/-- C135, the part that holds: if the destructor of the derived class begins with `safe_delete`, then whatever the threads do,
before and during the destruction, no pure virtual function is called and no function of the derived class is interrupted. -/
theorem C135_safe_delete_partial (ms : Nat) (sched : List DAct) (hpol : Polite sched) (d : DSt)
    (hs : dexec (dinit ms) sched = some d) : d.pure = false ∧ d.torn = false := by
  have := dexec_ind (P := Quiet) (A := fun a => a ≠ .destroy false) (fun d a d' h ha hs => quiet_step h (fun e => absurd e ha) hs)
    sched (dinit ms) d ⟨rfl, rfl, destroy_init ms, by simp [dinit, OPc.late]⟩ (fun a ha e => hpol (e ▸ ha)) hs
  exact ⟨this.pure, this.torn⟩

/-- C135: a timer that has not been started, or whose thread has ended (`stop(true)` has returned), is destroyed safely even
without `safe_delete`. -/
theorem C135_joined_before_partial (ms : Nat) (d : DSt) (h : DReach ms d) (ho : d.opc = .alive) (hpu : d.pure = false)
    (hto : d.torn = false) (hov : d.t.pc.over = true) (sched : List DAct) (d' : DSt)
    (hs : dexec d (.destroy false :: sched) = some d') : d'.pure = false ∧ d'.torn = false := by
  simp only [dexec] at hs
  cases h1 : dstep d (.destroy false) with
  | none => rw [h1] at hs; cases hs
  | some d1 =>
    rw [h1, Option.bind_some] at hs
    have hq : Quiet d1 := quiet_step ⟨hpu, hto, destroy_inv h, by rw [ho]; simp [OPc.late]⟩ (fun _ => hov) h1
    have hl : d1.opc.late = true := by
      obtain ⟨_, _, hc⟩ := dstep_case h1
      cases hc with
      | destroy _ _ e => subst e; rfl
    have := dexec_ind (P := fun d => Quiet d ∧ d.opc.late = true) (A := fun _ => True) (fun d a d' ⟨hq, hl⟩ _ hs => by
      refine ⟨quiet_step hq (fun _ => hq.over hl) hs, ?_⟩
      obtain ⟨_, _, hc⟩ := dstep_case hs
      cases hc with
      | env _ _ _ _ _ _ e => subst e; exact hl
      | enter _ _ e => subst e; exact hl
      | crash _ _ e => subst e; exact hl
      | move _ _ _ e => subst e; exact hl
      | destroy p ha e => rw [ha] at hl; cases hl
      | owner hi0 ho =>
        simp only [downer, if_pos hi0] at ho
        split at ho <;> try split at ho
        all_goals first | (cases ho; done) | (injection ho with ho; subst ho; first | rfl | skip)
        next e => rw [e] at hl; cases hl) sched d1 d' ⟨hq, hl⟩ (fun _ _ => trivial) hs
    exact ⟨this.1.pure, this.1.torn⟩

/-! #### Exactly when the destruction fails -/

/-- `on_interval` can still be called: the thread has not reached the end of its loop, and `_is_running` is set, or will be. -/
def Doomed (s : St) : Prop :=
  match s.pc with
  | .enter | .startLock | .startBody | .startUnlock | .setRunning | .call => True
  | .stamp | .loopTest | .lock | .wait | .waiting | .relock _ | .testRunning _ | .setRem | .adjRem | .reset | .unlock =>
    s.isRunning = true
  | .testForced tmo => tmo = true ∨ s.forced = true ∨ s.isRunning = true
  | .inCall => True
  | .clearForced | .loadRunning => s.isRunning = true ∧ s.code = 0
  | .storeRunning b => b = true
  | .idle | .stopLock | .stopBody | .stopUnlock | .finish | .finished => False

def DAct.isCall : DAct → Bool
  | .t (.call _ _) => true
  | _ => false

/-- The owner is the only client, and only destroys. -/
def Alone (s : St) : Prop :=
  (∀ t, t ≠ 0 → s.cpc t = .idle) ∧
  (s.cpc 0 = .idle ∨ s.cpc 0 = .stopStore ∨ s.cpc 0 = .stopCallback ∨ s.cpc 0 = .stopNotify ∨ s.cpc 0 = .deleteLock ∨
    s.cpc 0 = .deleteStore ∨ s.cpc 0 = .deleteUnlock)

theorem thread_cpc {s s' : St} (hs : thread s = some s') : s'.cpc = s.cpc := by
  unfold thread at hs
  split at hs <;> try split at hs
  all_goals first | (cases hs; done) | (injection hs with hs; subst hs; rfl)

theorem doomed_thread {s s' : St} (hs : thread s = some s') (hd : Doomed s') : Doomed s := by
  unfold thread at hs
  unfold Doomed at hd ⊢
  cases hp : s.pc <;> rw [hp] at hs <;> simp only [reduceCtorEq] at hs ⊢
  all_goals try split at hs
  all_goals first | (cases hs; done) | skip
  all_goals
    injection hs with hs
  all_goals subst hs
  all_goals simp_all [St.goto, St.emit]
  next h => rcases h with h | h <;> simp [h]

theorem doomed_client {s s' : St} {t : Nat} (ha : Alone s) (hs : client s t = some s') :
    Alone s' ∧ (Doomed s' → Doomed s) := by
  obtain ⟨h1, h2⟩ := ha
  by_cases ht : t = 0
  · subst ht
    unfold client at hs
    rcases h2 with h2 | h2 | h2 | h2 | h2 | h2 | h2 <;> rw [h2] at hs <;> simp only at hs
    · cases hs
    · injection hs with hs; subst hs
      refine ⟨⟨fun u hu => by simpa [St.c, St.emit, hu] using h1 u hu, by simp [St.c, St.emit]⟩, fun hd => ?_⟩
      unfold Doomed at hd ⊢
      cases hp : s.pc <;> simp only [St.c, St.emit, hp] at hd ⊢ <;> simp_all
      rcases hd with hd | hd <;> simp [hd]
    · injection hs with hs; subst hs
      exact ⟨⟨fun u hu => by simpa [St.c, St.emit, hu] using h1 u hu, by simp [St.c, St.emit]⟩, id⟩
    · injection hs with hs; subst hs
      exact ⟨⟨fun u hu => by simpa [St.c, hu] using h1 u hu, by simp [St.c]⟩, id⟩
    · split at hs
      · injection hs with hs; subst hs
        exact ⟨⟨fun u hu => by simpa [St.c, hu] using h1 u hu, by simp [St.c]⟩, id⟩
      · cases hs
    · injection hs with hs; subst hs
      exact ⟨⟨fun u hu => by simpa [St.c, St.emit, hu] using h1 u hu, by simp [St.c, St.emit]⟩, id⟩
    · injection hs with hs; subst hs
      exact ⟨⟨fun u hu => by simpa [St.c, hu] using h1 u hu, by simp [St.c]⟩, id⟩
  · simp only [client, h1 t ht] at hs
    cases hs

structure Safe (d : DSt) : Prop where
  pure  : d.pure = false
  inv   : DestroyInv d
  brk   : d.opc.broken = true
  alone : Alone d.t
  fine  : ¬ Doomed d.t

theorem safe_step {d d' : DSt} {a : DAct} (h : Safe d) (ha : a.isCall = false) (hs : dstep d a = some d') : Safe d' := by
  obtain ⟨hpu, hi, hb, hal, hn⟩ := h
  have hi' := destroy_step hi hs
  obtain ⟨_, _, hc⟩ := dstep_case hs
  have hder := hi.der.2 hb
  cases hc with
  | env b s hw hst hcl hq e =>
    subst e
    cases b with
    | start => rw [hst rfl] at hb; cases hb
    | thread => exact absurd rfl hw
    | call t op => cases ha
    | client t =>
      obtain ⟨h1, h2⟩ := doomed_client hal hq
      exact ⟨hpu, hi', hb, h1, fun hd => hn (h2 hd)⟩
    | ret v =>
      simp only [step] at hq
      split at hq
      · next e => exact absurd (by unfold Doomed; rw [e]; trivial) hn
      · cases hq
    | timeout =>
      simp only [step] at hq
      split at hq
      · next e =>
        injection hq with hq; subst hq
        exact ⟨hpu, hi', hb, hal, fun hd => hn (by unfold Doomed at hd ⊢; rw [e.1]; exact hd)⟩
      · cases hq
    | wake =>
      simp only [step] at hq
      split at hq
      · next e =>
        injection hq with hq; subst hq
        exact ⟨hpu, hi', hb, hal, fun hd => hn (by unfold Doomed at hd ⊢; rw [e]; exact hd)⟩
      · cases hq
    | tick n => injection hq with hq; subst hq; exact ⟨hpu, hi', hb, hal, hn⟩
    | adjust n => injection hq with hq; subst hq; exact ⟨hpu, hi', hb, hal, hn⟩
  | enter hc hd e => rw [hder] at hd; cases hd
  | crash hc hd e => exact absurd (by unfold Doomed; rw [hc]; trivial) hn
  | move s hh hw e =>
    subst e
    refine ⟨hpu, hi', hb, ?_, fun hd => hn (doomed_thread hw hd)⟩
    show Alone s
    unfold Alone
    rw [thread_cpc hw]
    exact hal
  | destroy p hal e => rw [hal] at hb; cases hb
  | owner hi0 ho =>
    have key : ∀ p, (p = .stopStore ∨ p = .deleteLock) → Alone (d.t.c 0 p) := fun p hp =>
      ⟨fun u hu => by simpa [St.c, hu] using hal.1 u hu, by rcases hp with rfl | rfl <;> simp [St.c]⟩
    simp only [downer, if_pos hi0] at ho
    split at ho <;> try split at ho
    all_goals try (cases ho; done)
    all_goals
      injection ho with ho
      subst ho
    · next e => rw [e] at hb; cases hb
    · next e _ => rw [e] at hb; cases hb
    · next e => rw [e] at hb; cases hb
    · exact ⟨hpu, hi', rfl, key _ (.inr rfl), hn⟩
    · exact ⟨hpu, hi', rfl, key _ (.inl rfl), hn⟩
    · exact ⟨hpu, hi', rfl, hal, hn⟩

/-- The way to the next call of `on_interval`, when the waiting ends with a timeout. -/
def Pc.dist : Pc → Nat
  | .enter => 50
  | .startLock => 49
  | .startBody => 48
  | .startUnlock => 47
  | .setRunning => 46
  | .stamp => 45
  | .clearForced => 44
  | .loadRunning => 43
  | .storeRunning _ => 42
  | .relock false => 34
  | .testRunning false => 33
  | .testForced false => 32
  | .adjRem | .setRem => 31
  | .reset => 30
  | .unlock => 29
  | .loopTest => 28
  | .lock => 27
  | .wait => 26
  | .waiting => 25
  | .relock true => 24
  | .testRunning true => 23
  | .testForced true => 22
  | _ => 0

def Act.byThread : Act → Bool
  | .thread | .timeout | .tick _ => true
  | _ => false

theorem doomed_forward {s : St} (hi : Own s) (hm : ∀ t, s.mtx ≠ some (.client t)) (hc : s.pc ≠ .call) (hin : s.pc ≠ .inCall)
    (hd : Doomed s) :
    ∃ l s', (∀ a ∈ l, a.byThread = true) ∧ exec s l = some s' ∧ (l = [.thread] ∨ ∃ n, l = [.tick n, .timeout]) ∧ Doomed s' ∧
      s'.pc.dist < s.pc.dist ∧ (∀ t, s'.mtx ≠ some (.client t)) ∧ s'.pc ≠ .inCall := by
  have hmtx : s.pc.owns = false → s.mtx = none := fun ho => by
    cases hmx : s.mtx with
    | none => rfl
    | some o =>
      cases o with
      | thread => rw [hi.1.2 hmx] at ho; cases ho
      | client t => exact absurd hmx (hm t)
  by_cases hwt : s.pc = .waiting
  · refine ⟨[.tick (s.deadline - s.now).toNat, .timeout],
      { s with now := s.now + (s.deadline - s.now).toNat, wall := s.wall + (s.deadline - s.now).toNat, pc := .relock true },
      by simp [Act.byThread], ?_, .inr ⟨_, rfl⟩, ?_, by simp [Pc.dist, hwt], hm, by simp⟩
    · have : s.deadline ≤ s.now + (s.deadline - s.now).toNat := by omega
      simp only [exec, step, St.goto, hwt, this, Option.bind_some, and_self, if_true]
    · unfold Doomed at hd ⊢
      rw [hwt] at hd
      exact hd
  · suffices h : ∃ s', thread s = some s' ∧ Doomed s' ∧ s'.pc.dist < s.pc.dist ∧ (∀ t, s'.mtx ≠ some (.client t)) ∧
        s'.pc ≠ .inCall by
      obtain ⟨s', h1, h2⟩ := h
      exact ⟨[.thread], s', by simp [Act.byThread], by simp [exec, step, h1], .inl rfl, h2⟩
    unfold Doomed at hd
    cases hw : s.pc <;> rw [hw] at hd hmtx <;> simp only [Pc.owns] at hd hmtx <;>
      first | (cases hd; done) | (exact absurd hw hc) | (exact absurd hw hin) | (exact absurd hw hwt) | skip
    case relock tmo =>
      refine ⟨{ s.goto (.testRunning tmo) with mtx := some .thread }, by simp [thread, hw, hmtx], ?_, ?_, by simp, by simp [St.goto]⟩
      · unfold Doomed; exact hd
      · cases tmo <;> simp [St.goto, Pc.dist]
    case testRunning tmo =>
      refine ⟨s.goto (.testForced tmo), by simp [thread, hw, hd], ?_, ?_, hm, by simp [St.goto]⟩
      · unfold Doomed; exact .inr (.inr hd)
      · cases tmo <;> simp [St.goto, Pc.dist]
    case testForced tmo =>
      cases htf : (tmo || s.forced)
      · simp only [Bool.or_eq_false_iff] at htf
        refine ⟨s.goto .adjRem, by simp [thread, hw, htf.1, htf.2], ?_, ?_, hm, by simp [St.goto]⟩
        · simpa [Doomed, St.goto, htf.1, htf.2] using hd
        · simp [St.goto, Pc.dist, htf.1]
      · refine ⟨s.goto .call, by simp [thread, hw, htf], ?_, ?_, hm, by simp [St.goto]⟩
        · unfold Doomed; trivial
        · cases tmo <;> simp [St.goto, Pc.dist]
    case startBody =>
      refine ⟨_, by simp only [thread, hw]; rfl, ?_, ?_, ?_, ?_⟩ <;> (split <;> simp_all [St.goto, St.emit, Pc.dist, Doomed])
    case loopTest =>
      exact ⟨s.goto .lock, by simp [thread, hw, hd], (by unfold Doomed; exact hd), by simp [St.goto, Pc.dist], hm, by simp [St.goto]⟩
    all_goals
      refine ⟨_, by simp only [thread, hw, hmtx, if_true]; rfl, ?_, ?_, ?_, ?_⟩ <;>
        simp_all [St.goto, St.emit, Pc.dist, Doomed]

theorem lift_step {d : DSt} {s' : St} {a : Act} (hpu : d.pure = false) (hto : d.torn = false) (hder : d.derived = false)
    (hc : d.t.pc ≠ .call) (ha : a.byThread = true) (hs : step d.t a = some s') :
    ∃ b, dstep d (.t a) = some { d with t := s', busy := b } := by
  cases a with
  | thread =>
    simp only [step] at hs
    exact ⟨false, by simp [dstep, dthread, hpu, hto, hder, hc, hs]⟩
  | timeout => exact ⟨d.busy, by simp [dstep, hpu, hto, DSt.lift, hs]⟩
  | tick n => exact ⟨d.busy, by simp [dstep, hpu, hto, DSt.lift, hs]⟩
  | _ => cases ha

theorem doomed_crash : ∀ (n : Nat) (d : DSt), d.t.pc.dist ≤ n → Own d.t → (∀ t, d.t.mtx ≠ some (.client t)) →
    d.derived = false → d.pure = false → d.torn = false → d.t.pc ≠ .inCall → Doomed d.t →
    ∃ sched d', (∀ a ∈ sched, ∃ b, a = .t b ∧ b.byThread = true) ∧ dexec d sched = some d' ∧ d'.pure = true := by
  intro n
  induction n with
  | zero =>
    intro d hn hi hm hder hpu hto hin hd
    by_cases hc : d.t.pc = .call
    · exact ⟨[.t .thread], { d with pure := true }, by simp [Act.byThread], by simp [dexec, dstep, dthread, hpu, hto, hder, hc], rfl⟩
    · obtain ⟨_, _, _, _, _, _, hlt, _⟩ := doomed_forward hi hm hc hin hd
      omega
  | succ n ih =>
    intro d hn hi hm hder hpu hto hin hd
    by_cases hc : d.t.pc = .call
    · exact ⟨[.t .thread], { d with pure := true }, by simp [Act.byThread], by simp [dexec, dstep, dthread, hpu, hto, hder, hc], rfl⟩
    · obtain ⟨l, s', hl, he, hform, hd', hlt, hm', hin'⟩ := doomed_forward hi hm hc hin hd
      have hown : Own s' := exec_ind (P := Own) (A := fun _ => True) (fun _ _ _ _ => own_step) l _ _ (fun _ _ => trivial) hi he
      obtain ⟨b, hde⟩ : ∃ b, dexec d (l.map .t) = some { d with t := s', busy := b } := by
        rcases hform with rfl | ⟨k, rfl⟩
        · simp only [exec] at he
          cases h1 : step d.t .thread with
          | none => rw [h1] at he; cases he
          | some s1 =>
            rw [h1] at he
            injection he with he
            subst he
            obtain ⟨b, hb⟩ := lift_step hpu hto hder hc rfl h1
            exact ⟨b, by simp [dexec, hb]⟩
        · simp only [exec] at he
          cases h1 : step d.t (.tick k) with
          | none => rw [h1] at he; cases he
          | some s1 =>
            rw [h1, Option.bind_some] at he
            cases h2 : step s1 .timeout with
            | none => rw [h2] at he; cases he
            | some s2 =>
              rw [h2, Option.bind_some] at he
              injection he with he
              subst he
              obtain ⟨b, hb⟩ := lift_step hpu hto hder hc rfl h1
              have hc1 : s1.pc ≠ .call := by
                simp only [step] at h1
                injection h1 with h1; subst h1; exact hc
              obtain ⟨b', hb'⟩ := lift_step (d := { d with t := s1, busy := b }) hpu hto hder hc1 rfl h2
              exact ⟨b', by simp [dexec, hb, hb']⟩
      obtain ⟨sched, d', hall, hs, hpure⟩ := ih { d with t := s', busy := b } (by show s'.pc.dist ≤ n; omega) hown hm' hder hpu hto
        hin' hd'
      refine ⟨l.map .t ++ sched, d', ?_, by rw [dexec_append, hde]; exact hs, hpure⟩
      intro a ha
      rcases List.mem_append.1 ha with ha | ha
      · obtain ⟨c, hc, rfl⟩ := List.mem_map.1 ha
        exact ⟨c, rfl, hl c hc⟩
      · exact hall a ha

/-- A torn callback is the only thing that stops an object without a derived class at `on_interval`. -/
theorem broken_inCall {ms : Nat} {d : DSt} (h : DReach ms d) : d.derived = false → d.torn = false → d.t.pc ≠ .inCall := by
  obtain ⟨sched, hs⟩ := h
  refine dexec_ind (P := fun d => d.derived = false → d.torn = false → d.t.pc ≠ .inCall) (A := fun _ => True) ?_ sched _ _
    (by simp [dinit]) (fun _ _ => trivial) hs
  intro d a d' hP _ hst
  obtain ⟨_, hto, hc⟩ := dstep_case hst
  cases hc with
  | env b s hw hal _ hq e =>
    subst e
    intro h1 h2
    have := hP h1 h2
    show s.pc ≠ _
    rcases env_pc hq hw with e | ⟨e, e'⟩ | ⟨_, _, _, e⟩ | ⟨_, e | e⟩
    · rw [e]; exact this
    · subst e
      simp only [step] at hq
      split at hq
      · injection hq with hq; subst hq; simp [St.goto]
      · cases hq
    all_goals rw [e]; simp
  | enter _ hd e => subst e; intro h1; rw [hd] at h1; cases h1
  | crash _ _ e => subst e; exact hP
  | move s hh hw e =>
    subst e
    intro h1 h2
    show s.pc ≠ _
    have hncall : d.t.pc ≠ .call := fun e => by rw [hh e] at h1; cases h1
    have hnin := hP h1 h2
    unfold thread at hw
    cases hp : d.t.pc <;> rw [hp] at hw <;> simp only [reduceCtorEq] at hw
    case call => exact absurd hp hncall
    all_goals try split at hw
    all_goals first | (cases hw; done) | skip
    all_goals injection hw with hw
    all_goals subst hw
    all_goals simp [St.goto, St.emit]
  | destroy _ _ e => subst e; exact hP
  | owner hi0 ho =>
    simp only [downer, if_pos hi0] at ho
    split at ho <;> try split at ho
    all_goals try (cases ho; done)
    all_goals
      injection ho with ho
      subst ho
    · exact hP
    · exact hP
    · intro _ h2 e
      change d.t.pc = _ at e
      simp [e] at h2
    · exact hP
    · exact hP
    · exact hP

/-- C135, exactly: let the derived class have just been destroyed without `safe_delete`, and let nobody but the destructor use
the timer any more.  The pure virtual `on_interval` can be called, in some order of the remaining steps, if and only if the thread
has been started and has not yet met, in its loop, a cleared `_is_running`.  In particular a timer whose thread has not yet set
`_is_running` cannot be destroyed safely, even if it has been stopped. -/
theorem C135_exact (ms : Nat) (d : DSt) (h : DReach ms d) (ho : d.opc = .baseMark) (hpu : d.pure = false) (hto : d.torn = false)
    (hidle : ∀ t, d.t.cpc t = .idle) :
    (∃ sched d', (∀ a ∈ sched, a.isCall = false) ∧ dexec d sched = some d' ∧ d'.pure = true) ↔ Doomed d.t := by
  have hi := destroy_inv h
  have hder : d.derived = false := hi.der.2 (by rw [ho]; rfl)
  constructor
  · rintro ⟨sched, d', hA, hs, hpure⟩
    by_contra hn
    have := dexec_ind (P := Safe) (A := fun a => a.isCall = false) (fun d a d' hd ha hs => safe_step hd ha hs) sched d d'
      ⟨hpu, hi, by rw [ho]; rfl, ⟨fun t _ => hidle t, .inl (hidle 0)⟩, hn⟩ hA hs
    rw [this.pure] at hpure
    cases hpure
  · intro hd
    have hown := own_inv (dreach_reach h)
    obtain ⟨sched, d', hA, hs, hpure⟩ := doomed_crash _ d (Nat.le_refl _) hown
      (fun t hm => by have := (hown.2 t).2 hm; rw [hidle t] at this; cases this) hder hpu hto (broken_inCall h hder hto) hd
    exact ⟨sched, d', (fun a ha => by
      obtain ⟨b, rfl, hb⟩ := hA a ha
      cases b <;> first | rfl | cases hb), hs, hpure⟩

/-! #### `safe_delete` may never return -/

def Pc.looping : Pc → Bool
  | .stamp | .loopTest | .lock | .wait | .waiting | .relock _ | .testRunning _ | .testForced _ | .call | .inCall | .clearForced
  | .loadRunning | .storeRunning true | .setRem | .adjRem | .reset | .unlock => true
  | _ => false

structure Hang (d : DSt) : Prop where
  opc  : d.opc = .politeJoin
  der  : d.derived = true
  idle : ∀ t, d.t.cpc t = .idle
  run  : d.t.isRunning = true
  pc   : d.t.pc.looping = true
  code : d.t.pc = .clearForced ∨ d.t.pc = .loadRunning → d.t.code = 0

theorem hang_step {d d' : DSt} {a : DAct} (h : Hang d) (ha : a.isCall = false) (hr : ∀ v, a = .t (.ret v) → v = 0)
    (hs : dstep d a = some d') : Hang d' := by
  obtain ⟨ho, hder, hid, hrun, hpc, hco⟩ := h
  obtain ⟨_, _, hc⟩ := dstep_case hs
  cases hc with
  | env b s hw hst hcl hq e =>
    subst e
    cases b with
    | start => have := hst rfl; rw [ho] at this; cases this
    | thread => exact absurd rfl hw
    | call t op => cases ha
    | client t => simp only [step, client, hid t] at hq; cases hq
    | ret v =>
      simp only [step] at hq
      split at hq
      · injection hq with hq; subst hq
        exact ⟨ho, hder, hid, hrun, rfl, fun _ => hr v rfl⟩
      · cases hq
    | timeout =>
      simp only [step] at hq
      split at hq
      · injection hq with hq; subst hq
        exact ⟨ho, hder, hid, hrun, rfl, by simp [St.goto]⟩
      · cases hq
    | wake =>
      simp only [step] at hq
      split at hq
      · injection hq with hq; subst hq
        exact ⟨ho, hder, hid, hrun, rfl, by simp [St.goto]⟩
      · cases hq
    | tick n => injection hq with hq; subst hq; exact ⟨ho, hder, hid, hrun, hpc, hco⟩
    | adjust n => injection hq with hq; subst hq; exact ⟨ho, hder, hid, hrun, hpc, hco⟩
  | enter hc hd e => subst e; exact ⟨ho, hder, hid, hrun, hpc, hco⟩
  | crash hc hd e => rw [hder] at hd; cases hd
  | move s hh hw e =>
    subst e
    have hcp := thread_cpc hw
    have key : s.isRunning = true ∧ s.pc.looping = true ∧ (s.pc = .clearForced ∨ s.pc = .loadRunning → s.code = 0) := by
      unfold thread at hw
      cases hp : d.t.pc <;> rw [hp] at hw hpc hco <;> simp only [reduceCtorEq, Pc.looping] at hw hpc hco
      case storeRunning b =>
        cases b with
        | false => cases hpc
        | true => injection hw with hw; subst hw; simp [St.goto, Pc.looping]
      case testForced tmo =>
        injection hw with hw; subst hw
        cases hx : (tmo || d.t.forced) <;> simp_all [St.goto, Pc.looping]
      all_goals try split at hw
      all_goals first | (cases hw; done) | skip
      all_goals injection hw with hw
      all_goals subst hw
      all_goals simp_all [St.goto, St.emit, Pc.looping]
    exact ⟨ho, hder, fun t => by show s.cpc t = _; rw [hcp]; exact hid t, key.1, key.2.1, key.2.2⟩
  | destroy p hal e => rw [ho] at hal; cases hal
  | owner hi0 ho' =>
    simp only [downer, if_pos hi0, ho] at ho'
    split at ho'
    · next hov => cases hp : d.t.pc <;> rw [hp] at hov hpc <;> first | (cases hov; done) | cases hpc
    · cases ho'

/-- C135: even a derived class that calls `safe_delete` may not be destroyed properly: if the thread has not yet set `_is_running`
the stop is lost, and the destructor waits for ever, whatever happens, as long as `on_interval` reports success and nobody stops
the timer once more. -/
theorem C135_hang (ms : Nat) : ∃ sched d, Polite sched ∧ dexec (dinit ms) sched = some d ∧ d.opc = .politeJoin ∧
    d.t.cpc 0 = .idle ∧ Event.stopStored 0 ∈ d.t.log ∧
    ∀ sched' d', (∀ a ∈ sched', a.isCall = false ∧ ∀ v, a = .t (.ret v) → v = 0) → dexec d sched' = some d' →
      d'.opc = .politeJoin := by
  have hk : ∃ d, dexec (dinit ms) ([.t .start, .t .thread, .t .thread, .t .thread, .t .thread, .t .thread, .destroy true, .owner,
      .t (.client 0), .t (.client 0), .t (.client 0), .t .thread]) = some d ∧ Hang d ∧ Event.stopStored 0 ∈ d.t.log := by
    refine ⟨_, rfl, ⟨rfl, rfl, fun t => ?_, rfl, rfl, by rintro (h | h) <;> cases h⟩, ?_⟩
    · show (if t = 0 then CPc.idle else if t = 0 then CPc.stopNotify else if t = 0 then CPc.stopCallback else
        if t = 0 then CPc.stopStore else CPc.idle) = CPc.idle
      split <;> rfl
    · exact List.mem_cons_of_mem _ (List.mem_cons_self)
  obtain ⟨d, hs, hh, hlog⟩ := hk
  refine ⟨_, d, by simp [Polite], hs, hh.opc, hh.idle 0, hlog, fun sched' d' hA hs' => ?_⟩
  exact (dexec_ind (P := Hang) (A := fun a => a.isCall = false ∧ ∀ v, a = .t (.ret v) → v = 0)
    (fun d a d' hd ha hs => hang_step hd ha.1 ha.2 hs) sched' d d' hh hA hs').opc

/-- A derived class that calls `safe_delete` while the timer waits: it is stopped, joined and gone. -/
example :
    (dexec (dinit 100) ([.t .start] ++ List.replicate 10 (.t .thread) ++
      [.destroy true, .owner, .t (.client 0), .t (.client 0), .t (.client 0), .t .wake] ++ List.replicate 9 (.t .thread) ++
      [.owner, .owner, .owner, .t (.client 0), .t (.client 0), .t (.client 0), .owner, .t (.client 0), .t (.client 0),
       .t (.client 0), .owner])).map (fun d => (d.pure, d.torn, d.opc, d.t.pc)) =
    some (false, false, .gone, .finished) := by decide +kernel

/-- A timer that is destroyed without it while it waits is saved by `_is_running`. -/
example :
    (dexec (dinit 100) ([.t .start] ++ List.replicate 10 (.t .thread) ++
      [.destroy false, .owner, .owner, .t (.client 0), .t (.client 0), .t (.client 0), .owner, .t (.client 0), .t (.client 0),
       .t (.client 0), .t .wake] ++ List.replicate 8 (.t .thread) ++ [.owner])).map (fun d => (d.pure, d.torn, d.opc, d.t.pc)) =
    some (false, false, .gone, .finished) := by decide +kernel

end Verif.Timer
