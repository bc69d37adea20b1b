import Verif.Conc.QueueProps

/-
C146: callbacks of message_queue_t that call the queue ("All methods are reentrant", message_queue.h:23).

`on_start`, `on_new_message` and `on_stop` run on the worker thread (message_queue.h:139, 155, 160).  What they do is an arbitrary
function of the history: the next method they call on their own queue, or that they return.  The worker executes such a call step
by step, as the client with the number `self`.

`join` of a thread by itself throws `std::system_error` (thread.h:67-71), and `start` assigns to a joinable `std::thread`
(thread.h:48-51): both end the program.
-/

namespace Verif.MsgQueue

variable {α : Type}

/-- A method called by a callback. -/
inductive Call (α : Type) where
  | op (o : Op α)
  | join                       -- thread.h:67; also `safe_delete`, message_queue.h:51-54
  | start                      -- thread.h:48

/-- What the callback does next, given the callback (as program counter of the worker) and the history; `none`: it returns. -/
abbrev Callbacks (α : Type) := WPc α → List (Event α) → Option (Call α)

/-- The worker is inside a callback. -/
def WPc.inCallback : WPc α → Bool
  | .onStart | .handle _ | .onStop => true
  | _ => false

structure RSt (α : Type) where
  base : St α
  dead : Bool                  -- `std::terminate` was called

def RSt.init : RSt α := ⟨Verif.MsgQueue.init, false⟩

/-- One step of the worker. -/
def workerR (pick : Pick α) (cb : Callbacks α) (self : Nat) (s : St α) : Option (RSt α) :=
  if s.wpc.inCallback then
    match s.cpc self with
    | .idle =>
      match cb s.wpc s.log with
      | none => (worker pick s).map fun s => ⟨s, false⟩
      | some (.op o) => some ⟨enter s self o, false⟩
      | some .join | some .start => some ⟨s, true⟩
    | _ => (client s self).map fun s => ⟨s, false⟩
  else (worker pick s).map fun s => ⟨s, false⟩

/-- One step; the other clients have other numbers than `self`. -/
def stepR (pick : Pick α) (cb : Callbacks α) (self : Nat) (s : RSt α) (a : Act α) : Option (RSt α) :=
  if s.dead then none
  else
    match a with
    | .worker => workerR pick cb self s.base
    | .call t op => if t = self then none else (step pick s.base (.call t op)).map fun s => ⟨s, false⟩
    | .client t => if t = self then none else (step pick s.base (.client t)).map fun s => ⟨s, false⟩
    | a => (step pick s.base a).map fun s => ⟨s, false⟩

def execR (pick : Pick α) (cb : Callbacks α) (self : Nat) (s : RSt α) : List (Act α) → Option (RSt α)
  | [] => some s
  | a :: as => (stepR pick cb self s a).bind fun s' => execR pick cb self s' as

def ReachR (pick : Pick α) (cb : Callbacks α) (self : Nat) (s : RSt α) : Prop := ∃ sched, execR pick cb self RSt.init sched = some s

/-! ### Every step is one of the model without calls -/

theorem stepR_step {pick : Pick α} {cb : Callbacks α} {self : Nat} {s s' : RSt α} {a : Act α} (h : stepR pick cb self s a = some s') :
    s'.base = s.base ∨ ∃ b, step pick s.base b = some s'.base := by
  have hm : ∀ {o : Option (St α)} {b : Act α}, step pick s.base b = o → (o.map fun s => (⟨s, false⟩ : RSt α)) = some s' →
      s'.base = s.base ∨ ∃ b, step pick s.base b = some s'.base := by
    intro o b e ho
    cases o with
    | none => cases ho
    | some s1 =>
      injection ho with ho
      subst ho
      exact .inr ⟨b, e⟩
  unfold stepR at h
  split at h
  · cases h
  cases a with
  | worker =>
    simp only [workerR] at h
    split at h
    · split at h
      · next hc =>
        split at h
        · exact hm (b := .worker) rfl h
        · next o _ =>
          injection h with h
          subst h
          exact .inr ⟨.call self o, by simp [step, hc]⟩
        · injection h with h
          subst h
          exact .inl rfl
        · injection h with h
          subst h
          exact .inl rfl
      · exact hm (b := .client self) rfl h
    · exact hm (b := .worker) rfl h
  | call t op =>
    simp only at h
    split at h
    · cases h
    · exact hm (b := .call t op) rfl h
  | client t =>
    simp only at h
    split at h
    · cases h
    · exact hm (b := .client t) rfl h
  | start => exact hm (b := .start) rfl h
  | wake => exact hm (b := .wake) rfl h
  | timeout => exact hm (b := .timeout) rfl h

theorem reachR_ind {pick : Pick α} {cb : Callbacks α} {self : Nat} {P : RSt α → Prop} (h0 : P RSt.init)
    (hstep : ∀ s a s', P s → stepR pick cb self s a = some s' → P s') {s : RSt α} (h : ReachR pick cb self s) : P s := by
  obtain ⟨sched, hs⟩ := h
  have : ∀ (sched : List (Act α)) (s s' : RSt α), P s → execR pick cb self s sched = some s' → P s' := by
    intro sched
    induction sched with
    | nil => intro s s' hp hs; injection hs with hs; subst hs; exact hp
    | cons a as ih =>
      intro s s' hp hs
      cases h1 : stepR pick cb self s a with
      | none => simp [execR, h1] at hs
      | some s1 =>
        simp only [execR, h1, Option.bind_some] at hs
        exact ih s1 s' (hstep s a s1 hp h1) hs
  exact this sched _ s h0 hs

theorem reach_step {pick : Pick α} {s s' : St α} {a : Act α} (h : Reach pick s) (hs : step pick s a = some s') : Reach pick s' := by
  obtain ⟨sched, he⟩ := h
  refine ⟨sched ++ [a], ?_⟩
  rw [exec_append, he]
  simp [exec, hs]

theorem reachR_reach {pick : Pick α} {cb : Callbacks α} {self : Nat} {s : RSt α} (h : ReachR pick cb self s) : Reach pick s.base := by
  refine reachR_ind (P := fun s => Reach pick s.base) ⟨[], rfl⟩ ?_ h
  intro s a s' hr hs
  rcases stepR_step hs with e | ⟨b, hb⟩
  · rwa [e]
  · exact reach_step hr hb

/-! ### C146 -/

/-- The callbacks call only methods other than `start`, `join` and `safe_delete`. -/
def Callbacks.Plain (cb : Callbacks α) : Prop := ∀ p l c, cb p l = some c → ∃ o, c = .op o

/-- Steps a call still needs. -/
def CPc.rank : CPc α → Nat
  | .idle => 0
  | .pushEnter _ => 4 | .pushBody _ => 3 | .pushRelease => 2 | .notify => 1
  | .stopSet => 2 | .discardSet => 2
  | .sizeEnter => 3 | .sizeRead => 2 | .sizeRelease _ => 1
  | .emptyEnter => 3 | .emptyRead => 2 | .emptyRelease _ => 1
  | .runningRead => 1

/-- A step of a client that need not wait for the mutex. -/
theorem client_free {s : St α} {t : Nat} (hne : s.cpc t ≠ .idle) (hm : s.mtx = none ∨ (s.cpc t).owns = true) :
    ∃ s', client s t = some s' ∧ s'.wpc = s.wpc ∧ (s'.cpc t).rank < (s.cpc t).rank ∧ (∀ u, u ≠ t → s'.cpc u = s.cpc u) ∧
      (s'.mtx = none ∨ s'.mtx = some (.client t) ∧ (s'.cpc t).owns = true ∨ s'.mtx = s.mtx ∧ (s'.cpc t).owns = (s.cpc t).owns) := by
  cases hc : s.cpc t <;> simp only [hc, CPc.owns, Bool.false_eq_true, or_false, ne_eq, not_true_eq_false] at hm hne <;>
    simp only [client, hc] <;>
    first
    | (rw [if_pos hm]
       refine ⟨_, rfl, rfl, ?_, fun u hu => ?_, ?_⟩ <;> simp_all [St.c, CPc.rank, CPc.owns])
    | (refine ⟨_, rfl, rfl, ?_, fun u hu => ?_, ?_⟩ <;> simp_all [St.c, St.emit, CPc.rank, CPc.owns])

theorem workerR_call {pick : Pick α} {cb : Callbacks α} {self : Nat} {s s' : St α} (hcb : s.wpc.inCallback = true)
    (hne : s.cpc self ≠ .idle) (h : client s self = some s') : stepR pick cb self ⟨s, false⟩ .worker = some ⟨s', false⟩ := by
  simp only [stepR, Bool.false_eq_true, if_false, workerR, hcb, if_true, h, Option.map_some]

/-- The call of a callback runs to its end when the mutex is free. -/
theorem call_returns {pick : Pick α} (cb : Callbacks α) (self : Nat) : ∀ (n : Nat) (s : St α), (s.cpc self).rank ≤ n →
    s.wpc.inCallback = true → (s.mtx = none ∨ (s.cpc self).owns = true) →
    ∃ k s', k ≤ n ∧ execR pick cb self ⟨s, false⟩ (List.replicate k .worker) = some ⟨s', false⟩ ∧ s'.wpc = s.wpc ∧
      s'.cpc self = .idle ∧ ∀ u, u ≠ self → s'.cpc u = s.cpc u := by
  intro n
  induction n with
  | zero =>
    intro s hr _ _
    refine ⟨0, s, Nat.le_refl _, rfl, rfl, ?_, fun _ _ => rfl⟩
    cases hc : s.cpc self <;> rw [hc] at hr <;> simp [CPc.rank] at hr
  | succ n ih =>
    intro s hr hcb hm
    by_cases hne : s.cpc self = .idle
    · exact ⟨0, s, Nat.zero_le _, rfl, rfl, hne, fun _ _ => rfl⟩
    · obtain ⟨s1, e1, w1, r1, o1, m1⟩ := client_free hne hm
      have hm1 : s1.mtx = none ∨ (s1.cpc self).owns = true := by
        rcases m1 with m1 | m1 | m1
        · exact .inl m1
        · exact .inr m1.2
        · rw [m1.1, m1.2]
          exact hm
      obtain ⟨k, s2, hk, e2, w2, i2, o2⟩ := ih s1 (by omega) (by rw [w1]; exact hcb) hm1
      refine ⟨k + 1, s2, by omega, ?_, by rw [w2, w1], i2, fun u hu => by rw [o2 u hu, o1 u hu]⟩
      rw [List.replicate_succ, execR, workerR_call hcb hne e1]
      exact e2

/-- A client that holds the mutex gives it up. -/
theorem owner_releases {pick : Pick α} (cb : Callbacks α) (self t : Nat) (ht : t ≠ self) : ∀ (n : Nat) (s : St α), (s.cpc t).rank ≤ n →
    Inv s → s.mtx = some (.client t) → (hp : GoodPick pick) →
    ∃ k s', k ≤ n ∧ execR pick cb self ⟨s, false⟩ (List.replicate k (.client t)) = some ⟨s', false⟩ ∧ s'.wpc = s.wpc ∧
      s'.mtx = none ∧ s'.cpc self = s.cpc self ∧ Inv s' := by
  intro n
  induction n with
  | zero =>
    intro s hr hi hm _
    have := (hi.cown t).2 hm
    cases hc : s.cpc t <;> rw [hc] at hr this <;> simp [CPc.rank, CPc.owns] at hr this
  | succ n ih =>
    intro s hr hi hm hp
    have ho := (hi.cown t).2 hm
    have hne : s.cpc t ≠ .idle := by intro h; rw [h] at ho; cases ho
    obtain ⟨s1, e1, w1, r1, o1, m1⟩ := client_free hne (.inr ho)
    have hstep : stepR pick cb self ⟨s, false⟩ (.client t) = some ⟨s1, false⟩ := by
      simp [stepR, ht, step, e1]
    have hi1 : Inv s1 := inv_step hp hi (.client t) e1
    have hm1 : s1.mtx = none ∨ s1.mtx = some (.client t) := by
      rcases m1 with m1 | m1 | m1
      · exact .inl m1
      · exact .inr m1.1
      · exact .inr (by rw [m1.1, hm])
    rcases hm1 with hm1 | hm1
    · refine ⟨1, s1, by omega, ?_, w1, hm1, o1 self (Ne.symm ht), hi1⟩
      simp [execR, hstep]
    · obtain ⟨k, s2, hk, e2, w2, m2, c2, i2⟩ := ih s1 (by omega) hi1 hm1 hp
      refine ⟨k + 1, s2, by omega, ?_, by rw [w2, w1], m2, by rw [c2, o1 self (Ne.symm ht)], i2⟩
      rw [List.replicate_succ, execR, hstep]
      exact e2

theorem execR_append {pick : Pick α} {cb : Callbacks α} {self : Nat} (as bs : List (Act α)) : ∀ s : RSt α,
    execR pick cb self s (as ++ bs) = (execR pick cb self s as).bind fun s' => execR pick cb self s' bs := by
  induction as with
  | nil => intro s; rfl
  | cons a as ih =>
    intro s
    simp only [List.cons_append, execR]
    cases stepR pick cb self s a with
    | none => rfl
    | some s1 => exact ih s1

theorem worker_cpc {pick : Pick α} {s s' : St α} (h : worker pick s = some s') : s'.cpc = s.cpc := by
  unfold worker at h
  split at h <;> repeat' (split at h)
  all_goals first
    | (injection h with h; subst h; rfl)
    | cases h

theorem client_other {s s' : St α} {t : Nat} (h : client s t = some s') : s'.wpc = s.wpc ∧ ∀ u, u ≠ t → s'.cpc u = s.cpc u := by
  unfold client at h
  split at h <;> repeat' (split at h)
  all_goals first
    | (injection h with h; subst h; exact ⟨rfl, fun u hu => if_neg hu⟩)
    | cases h

/-- Outside the callbacks no call of theirs is under way. -/
theorem self_idle {pick : Pick α} {cb : Callbacks α} {self : Nat} {s : RSt α} (h : ReachR pick cb self s) :
    s.base.wpc.inCallback = false → s.base.cpc self = .idle := by
  refine reachR_ind (P := fun s => s.base.wpc.inCallback = false → s.base.cpc self = .idle) (fun _ => rfl) ?_ h
  intro s a s' ih hs hc
  have hm : ∀ {o : Option (St α)}, (o.map fun s => (⟨s, false⟩ : RSt α)) = some s' → o = some s'.base := by
    intro o ho
    cases o with
    | none => cases ho
    | some s1 => injection ho with ho; subst ho; rfl
  unfold stepR at hs
  split at hs
  · cases hs
  cases a with
  | worker =>
    simp only [workerR] at hs
    split at hs
    · next hin =>
      split at hs
      · next hid =>
        split at hs
        · rw [worker_cpc (hm hs)]; exact hid
        · next o _ =>
          injection hs with hs
          subst hs
          have : (enter s.base self o).wpc = s.base.wpc := by cases o <;> rfl
          simp only [this, hin] at hc
          cases hc
        · injection hs with hs; subst hs; exact hid
        · injection hs with hs; subst hs; exact hid
      · rw [(client_other (hm hs)).1, hin] at hc
        cases hc
    · next hin =>
      rw [worker_cpc (hm hs)]
      exact ih (by simpa using hin)
  | call t op =>
    simp only at hs
    split at hs
    · cases hs
    · next ht =>
      have := hm hs
      simp only [step] at this
      split at this
      · injection this with this
        rw [← this] at hc ⊢
        have h1 : (enter s.base t op).wpc = s.base.wpc := by cases op <;> rfl
        have h2 : (enter s.base t op).cpc self = s.base.cpc self := by cases op <;> exact if_neg (Ne.symm ht)
        rw [h2]
        exact ih (by rw [← h1]; exact hc)
      · cases this
  | client t =>
    simp only at hs
    split at hs
    · cases hs
    · next ht =>
      obtain ⟨h1, h2⟩ := client_other (hm hs)
      rw [h2 self (Ne.symm ht)]
      exact ih (by rw [← h1]; exact hc)
  | start =>
    have := hm hs
    simp only [step] at this
    split at this
    · next hw => injection this with this; rw [← this]; exact ih (by rw [hw]; rfl)
    · next hw => injection this with this; rw [← this]; exact ih (by rw [hw]; rfl)
    · cases this
  | wake =>
    have := hm hs
    simp only [step] at this
    split at this
    · next hw => injection this with this; rw [← this]; exact ih (by rw [hw]; rfl)
    · cases this
  | timeout =>
    have := hm hs
    simp only [step] at this
    split at this
    · next hw => injection this with this; rw [← this]; exact ih (by rw [hw]; rfl)
    · cases this

/-- Every call of the callbacks returns: within at most three steps of the client that holds the mutex and four of the worker. -/
def CallReturns (pick : Pick α) (cb : Callbacks α) (self : Nat) (s : RSt α) : Prop :=
  s.base.wpc.inCallback = true → ∃ t j k s', j ≤ 3 ∧ k ≤ 4 ∧ (0 < j → s.base.mtx = some (.client t)) ∧
    execR pick cb self s (List.replicate j (.client t) ++ List.replicate k .worker) = some s' ∧
    s'.base.wpc = s.base.wpc ∧ s'.base.cpc self = .idle

/-- C146 in full: whatever methods the callbacks call, the program is not terminated and the calls return. -/
def C146_statement (α : Type) : Prop :=
  ∀ (pick : Pick α) (_ : GoodPick pick) (cb : Callbacks α) (self : Nat) (s : RSt α), ReachR pick cb self s →
    s.dead = false ∧ CallReturns pick cb self s

theorem callReturns {pick : Pick α} (hp : GoodPick pick) {cb : Callbacks α} {self : Nat} {s : RSt α} (h : ReachR pick cb self s)
    (hd : s.dead = false) : CallReturns pick cb self s := by
  intro hcb
  have hi := reach_inv hp (reachR_reach h)
  obtain ⟨s, d⟩ := s
  simp only at hd hcb hi ⊢
  subst hd
  have r4 : ∀ c : CPc α, c.rank ≤ 4 := by intro c; cases c <;> simp [CPc.rank]
  cases hm : s.mtx with
  | none =>
    obtain ⟨k, s', hk, e, w, c, _⟩ := call_returns (pick := pick) cb self 4 s (r4 _) hcb (.inl hm)
    exact ⟨0, 0, k, ⟨s', false⟩, by omega, hk, by omega, by simpa using e, w, c⟩
  | some o =>
    cases o with
    | worker =>
      have := hi.wown.2 hm
      cases hw : s.wpc <;> rw [hw] at this hcb <;> simp [WPc.owns, WPc.inCallback] at this hcb
    | client t =>
      by_cases ht : t = self
      · subst ht
        obtain ⟨k, s', hk, e, w, c, _⟩ := call_returns (pick := pick) cb t 4 s (r4 _) hcb (.inr ((hi.cown t).2 hm))
        exact ⟨0, 0, k, ⟨s', false⟩, by omega, hk, by omega, by simpa using e, w, c⟩
      · have r3 : (s.cpc t).rank ≤ 3 := by
          have := (hi.cown t).2 hm
          cases hc : s.cpc t <;> rw [hc] at this <;> simp [CPc.owns, CPc.rank] at this ⊢
        obtain ⟨j, s1, hj, e1, w1, m1, _, _⟩ := owner_releases (pick := pick) cb self t ht 3 s r3 hi hm hp
        obtain ⟨k, s2, hk, e2, w2, c2, _⟩ := call_returns (pick := pick) cb self 4 s1 (r4 _) (by rw [w1]; exact hcb) (.inl m1)
        refine ⟨t, j, k, ⟨s2, false⟩, hj, hk, fun _ => rfl, ?_, by simp only; rw [w2, w1], c2⟩
        rw [execR_append, e1]
        exact e2

theorem plain_alive {pick : Pick α} {cb : Callbacks α} {self : Nat} (hcb : cb.Plain) {s : RSt α} (h : ReachR pick cb self s) :
    s.dead = false := by
  refine reachR_ind (P := fun s => s.dead = false) rfl ?_ h
  intro s a s' _ hs
  have hm : ∀ {o : Option (St α)}, (o.map fun s => (⟨s, false⟩ : RSt α)) = some s' → s'.dead = false := by
    intro o ho
    cases o with
    | none => cases ho
    | some s1 => injection ho with ho; subst ho; rfl
  unfold stepR at hs
  split at hs
  · cases hs
  cases a with
  | worker =>
    simp only [workerR] at hs
    split at hs
    · split at hs
      · split at hs
        · exact hm hs
        · injection hs with hs; subst hs; rfl
        · next hc => obtain ⟨o, ho⟩ := hcb _ _ _ hc; cases ho
        · next hc => obtain ⟨o, ho⟩ := hcb _ _ _ hc; cases ho
      · exact hm hs
    · exact hm hs
  | call t op =>
    simp only at hs
    split at hs
    · cases hs
    · exact hm hs
  | client t =>
    simp only at hs
    split at hs
    · cases hs
    · exact hm hs
  | start => exact hm hs
  | wake => exact hm hs
  | timeout => exact hm hs

/-- C146, the part that holds: callbacks that call `receive_message`, `send`, `stop`, `discard_messages`, `size`, `empty` and
`is_running`, in any number and depending on the whole history, do not terminate the program, their calls return, no call is left
when they return, and the queue is in a state that it reaches also when other threads make these calls: all theorems about `Reach`
(C93 to C98, C115) hold.  Missing: `start`, `join` and `safe_delete`. -/
theorem C146_reentrant_partial (pick : Pick α) (hp : GoodPick pick) (cb : Callbacks α) (hcb : cb.Plain) (self : Nat) (s : RSt α)
    (h : ReachR pick cb self s) :
    s.dead = false ∧ CallReturns pick cb self s ∧ (s.base.wpc.inCallback = false → s.base.cpc self = .idle) ∧ Reach pick s.base :=
  ⟨plain_alive hcb h, callReturns hp h (plain_alive hcb h), self_idle h, reachR_reach h⟩

/-- C146: in particular, the messages of a FIFO queue are processed in the order in which clients and callbacks sent them. -/
theorem C146_fifo (cb : Callbacks α) (self : Nat) (s : RSt α) (h : ReachR pickFront cb self s)
    (hd : ∀ t, Event.discardCall t ∉ s.base.log) :
    received s.base.log = processed s.base.log ++ s.base.wpc.inflight ++ s.base.queue :=
  (C93_fifo s.base (reachR_reach h) hd).1

/-- C146: the calls of `start` and `join` do end the program: the step in which a callback makes one terminates it. -/
theorem C146_terminates (pick : Pick α) (cb : Callbacks α) (self : Nat) (s : RSt α) (hd : s.dead = false)
    (hw : s.base.wpc.inCallback = true) (hi : s.base.cpc self = .idle)
    (hc : cb s.base.wpc s.base.log = some .join ∨ cb s.base.wpc s.base.log = some .start) :
    stepR pick cb self s .worker = some ⟨s.base, true⟩ := by
  rcases hc with hc | hc <;> simp [stepR, workerR, hd, hw, hi, hc]

/-- C146 fails: a callback that shuts its queue down with `safe_delete`, which calls `stop` and `join`. -/
def shutdown : Callbacks Nat := fun p log =>
  match p with
  | .handle 0 => if Event.stopCall 9 ∈ log then some .join else some (.op .stop)
  | _ => none

theorem C146_counterexample : ¬ C146_statement Nat := by
  intro h
  have hk : (execR pickFront shutdown 9 RSt.init ([.start] ++ List.replicate 5 .worker ++ [.call 1 (.receive 0)] ++
      List.replicate 4 (.client 1) ++ [.wake] ++ List.replicate 11 .worker)).map (fun s => s.dead) = some true := by decide +kernel
  cases hs : execR pickFront shutdown 9 RSt.init ([.start] ++ List.replicate 5 .worker ++ [.call 1 (.receive 0)] ++
      List.replicate 4 (.client 1) ++ [.wake] ++ List.replicate 11 .worker) with
  | none => rw [hs] at hk; cases hk
  | some s =>
    rw [hs] at hk
    have := (h pickFront goodFront shutdown 9 s ⟨_, hs⟩).1
    simp [this] at hk

/-- A callback that answers each message `m > 0` with `m - 1` and stops the queue at 0. -/
def countdown : Callbacks Nat := fun p log =>
  match p with
  | .handle 0 => if Event.stopCall 9 ∈ log then none else some (.op .stop)
  | .handle (m + 1) => if Event.pushed 9 m ∈ log then none else some (.op (.receive m))
  | _ => none

example : countdown.Plain := by
  intro p l c h
  unfold countdown at h
  split at h
  · split at h
    · cases h
    · injection h with h; exact ⟨_, h.symm⟩
  · split at h
    · cases h
    · injection h with h; exact ⟨_, h.symm⟩
  · cases h

example : (execR pickFront countdown 9 RSt.init ([.start] ++ List.replicate 5 .worker ++ [.call 1 (.receive 2)] ++
    List.replicate 4 (.client 1) ++ [.wake] ++ List.replicate 37 .worker)).map
    (fun s => (s.dead, s.base.wpc, processed s.base.log, s.base.queue)) = some (false, .finished, [2, 1, 0], []) := by decide +kernel

end Verif.MsgQueue
