import Verif.Conc.QueueReenter

/-
C175: notifications of message_queue_t.

`wait_for` with a predicate (message_queue.h:143) evaluates the predicate and then blocks until it is notified or the 100 ms are
over, again and again until the predicate holds.  The mutex that it releases, `mtx_to_sleep` (:132), is a local variable of the
worker: `receive_message`, `stop` and `discard_messages` (:74-99) notify without it.  So between the evaluation and the blocking
a notification has no effect.

The model splits the sleep of `QueueModel` (`WPc.sleeping`) into the time before and after the blocking.
-/

namespace Verif.MsgQueue

variable {α : Type}

structure NSt (α : Type) where
  base : St α
  blocked : Bool               -- the worker is blocked in the condition variable
  woken : Bool                 -- and was notified
  missed : Bool                -- ghost: in this sleep, a notification came before the worker was blocked

def NSt.init : NSt α := ⟨Verif.MsgQueue.init, false, false, false⟩

inductive NAct (α : Type) where
  | base (a : Act α)           -- a step of `QueueModel`
  | block                      -- the worker blocks
  | spurious                   -- the blocked worker wakes up without notification
  deriving DecidableEq, Repr

def WPc.isSleeping : WPc α → Bool
  | .sleeping => true
  | _ => false

def CPc.isNotify : CPc α → Bool
  | .notify => true
  | _ => false

/-- One step. -/
def stepN (pick : Pick α) (s : NSt α) : NAct α → Option (NSt α)
  | .base .wake => if s.blocked && s.woken then (step pick s.base .wake).map fun b => ⟨b, false, false, false⟩ else none
  | .base .timeout => if s.blocked then (step pick s.base .timeout).map fun b => ⟨b, false, false, false⟩ else none
  | .spurious => if s.blocked then (step pick s.base .wake).map fun b => ⟨b, false, false, false⟩ else none
  | .block => if s.base.wpc.isSleeping && !s.blocked then some { s with blocked := true } else none
  | .base (.client t) =>
    (step pick s.base (.client t)).map fun b =>
      if (s.base.cpc t).isNotify then
        { s with base := b, woken := s.woken || s.blocked, missed := s.missed || (s.base.wpc.isSleeping && !s.blocked) }
      else { s with base := b }
  | .base a => (step pick s.base a).map fun b => { s with base := b }

def execN (pick : Pick α) (s : NSt α) : List (NAct α) → Option (NSt α)
  | [] => some s
  | a :: as => (stepN pick s a).bind fun s' => execN pick s' as

def ReachN (pick : Pick α) (s : NSt α) : Prop := ∃ sched, execN pick NSt.init sched = some s

/-- C175 (full statement): the worker does not sleep on while there are messages: once the calls that inserted them have
returned, it was notified. -/
def C175_statement (α : Type) : Prop :=
  ∀ (pick : Pick α), GoodPick pick → ∀ s, ReachN pick s → s.base.queue ≠ [] → (∀ t, s.base.cpc t = .idle) →
    s.blocked = true → s.woken = true

theorem execN_append {pick : Pick α} (as bs : List (NAct α)) : ∀ s : NSt α,
    execN pick s (as ++ bs) = (execN pick s as).bind fun s' => execN pick s' bs := by
  induction as with
  | nil => intro s; rfl
  | cons a as ih =>
    intro s
    simp only [List.cons_append, execN]
    cases stepN pick s a with
    | none => rfl
    | some s1 => simp only [Option.bind_some]; exact ih s1

theorem reachN_ind {pick : Pick α} {P : NSt α → Prop} (h0 : P NSt.init)
    (hstep : ∀ s a s', P s → stepN pick s a = some s' → P s') {s : NSt α} (h : ReachN pick s) : P s := by
  obtain ⟨sched, hs⟩ := h
  have : ∀ (sched : List (NAct α)) (s s' : NSt α), P s → execN pick s sched = some s' → P s' := by
    intro sched
    induction sched with
    | nil => intro s s' hp hs; injection hs with hs; subst hs; exact hp
    | cons a as ih =>
      intro s s' hp hs
      cases h1 : stepN pick s a with
      | none => simp [execN, h1] at hs
      | some s1 =>
        simp only [execN, h1, Option.bind_some] at hs
        exact ih s1 s' (hstep s a s1 hp h1) hs
  exact this sched _ s h0 hs

/-- Every step is one of `QueueModel`, or changes nothing there. -/
theorem stepN_base {pick : Pick α} {s s' : NSt α} {a : NAct α} (h : stepN pick s a = some s') :
    s'.base = s.base ∨ ∃ b, step pick s.base b = some s'.base := by
  have hm : ∀ {b : Act α} {f : St α → NSt α}, (∀ x, (f x).base = x) → (step pick s.base b).map f = some s' →
      s'.base = s.base ∨ ∃ b, step pick s.base b = some s'.base := by
    intro b f hf ho
    rw [Option.map_eq_some_iff] at ho
    obtain ⟨x, hx, rfl⟩ := ho
    exact .inr ⟨b, by rw [hx, hf]⟩
  cases a with
  | block =>
    simp only [stepN] at h
    split at h
    · injection h with h; subst h; exact .inl rfl
    · cases h
  | spurious =>
    simp only [stepN] at h
    split at h
    · exact hm (fun _ => rfl) h
    · cases h
  | base a =>
    cases a with
    | wake =>
      simp only [stepN] at h
      split at h
      · exact hm (fun _ => rfl) h
      · cases h
    | timeout =>
      simp only [stepN] at h
      split at h
      · exact hm (fun _ => rfl) h
      · cases h
    | client t =>
      simp only [stepN] at h
      exact hm (fun x => by split <;> rfl) h
    | start => exact hm (fun _ => rfl) h
    | worker => exact hm (fun _ => rfl) h
    | call t op => exact hm (fun _ => rfl) h

/-- What is proved of the queue in `QueueProps` holds here too. -/
theorem reachN_reach {pick : Pick α} {s : NSt α} (h : ReachN pick s) : Reach pick s.base := by
  refine reachN_ind (P := fun s => Reach pick s.base) ⟨[], rfl⟩ ?_ h
  intro s a s' hr hs
  rcases stepN_base hs with e | ⟨b, hb⟩
  · rwa [e]
  · exact reach_step hr hb

/-- A client that inserted a message and did not yet notify. -/
def CPc.willNotify : CPc α → Bool
  | .pushRelease | .notify => true
  | _ => false

structure NInv (s : NSt α) : Prop where
  sleeping : s.blocked = true → s.base.wpc = .sleeping
  woken : s.woken = true → s.blocked = true
  fresh : s.base.wpc ≠ .sleeping → s.missed = false
  msg : s.base.wpc = .sleeping → s.base.queue ≠ [] → s.woken = true ∨ s.missed = true ∨ ∃ t, (s.base.cpc t).willNotify = true

theorem worker_to_sleep {pick : Pick α} {s s' : St α} (h : worker pick s = some s') :
    s.wpc ≠ .sleeping ∧ (s'.wpc = .sleeping → s'.queue = []) := by
  unfold worker at h
  cases hw : s.wpc <;> rw [hw] at h <;> simp only [reduceCtorEq] at h
  case waitPred =>
    refine ⟨by simp, fun hs => ?_⟩
    injection h with h
    by_cases c : s.queue.isEmpty
    · rw [if_pos c] at h
      subst h
      exact List.isEmpty_iff.1 c
    · rw [if_neg c] at h
      subst h
      simp [St.w] at hs
  case clearLoop =>
    refine ⟨by simp, fun hs => ?_⟩
    split at h
    · injection h with h; subst h; simp [St.w] at hs
    · split at h
      · injection h with h; subst h; simp [St.emit, hw] at hs
      · injection h with h; subst h; simp [St.w] at hs
  case popTake =>
    refine ⟨by simp, fun hs => ?_⟩
    split at h
    · injection h with h; subst h; simp [St.w, St.emit] at hs
    · injection h with h; subst h; simp [St.w] at hs
  all_goals
    refine ⟨by simp, fun hs => ?_⟩
    first
    | (injection h with h; split at h <;> subst h <;> simp [St.w, St.emit] at hs)
    | (injection h with h; subst h; simp [St.w, St.emit] at hs)
    | (split at h
       · injection h with h; subst h; simp [St.w] at hs
       · cases h)

theorem client_wpc {s s' : St α} {t : Nat} (h : client s t = some s') : s'.wpc = s.wpc := by
  unfold client at h
  cases hc : s.cpc t <;> rw [hc] at h <;> simp only [reduceCtorEq] at h
  all_goals
    first
    | (injection h with h; subst h; rfl)
    | (split at h
       · injection h with h; subst h; rfl
       · cases h)

/-- What a step of a client does to the container, and where the client is afterwards. -/
theorem client_queue {s s' : St α} {t : Nat} (h : client s t = some s') :
    (∀ u, u ≠ t → s'.cpc u = s.cpc u) ∧
    ((s'.queue = s.queue ∧ ((s.cpc t).willNotify = true → s.cpc t ≠ .notify → (s'.cpc t).willNotify = true)) ∨
      (s'.cpc t).willNotify = true) := by
  unfold client at h
  cases hc : s.cpc t <;> rw [hc] at h <;> simp only [reduceCtorEq] at h
  all_goals
    first
    | (injection h with h
       subst h
       refine ⟨fun u hu => by simp [St.c, St.emit, hu], ?_⟩
       simp [St.c, St.emit, CPc.willNotify])
    | (split at h
       · injection h with h
         subst h
         refine ⟨fun u hu => by simp [St.c, St.emit, hu], ?_⟩
         simp [St.c, St.emit, CPc.willNotify]
       · cases h)

theorem reachN_inv {pick : Pick α} {s : NSt α} (h : ReachN pick s) : NInv s := by
  refine reachN_ind (P := NInv) ⟨(fun h => by cases h), (fun h => by cases h), fun _ => rfl, (fun h => by cases h)⟩ ?_ h
  intro s a s' hi hs
  have hleave : ∀ {b : Act α}, (b = .wake ∨ b = .timeout) → (step pick s.base b).map (fun b => (⟨b, false, false, false⟩ : NSt α)) = some s' →
      NInv s' := by
    intro b hb ho
    rw [Option.map_eq_some_iff] at ho
    obtain ⟨x, hx, rfl⟩ := ho
    have hw : x.wpc ≠ .sleeping := by
      rcases hb with rfl | rfl
      all_goals
        simp only [step] at hx
        split at hx
        · injection hx with hx; subst hx; simp [St.w]
        · cases hx
    exact ⟨(fun h => by cases h), (fun h => by cases h), fun _ => rfl, fun h => absurd h hw⟩
  cases a with
  | block =>
    simp only [stepN] at hs
    split at hs
    · next hc =>
      injection hs with hs
      subst hs
      simp only [Bool.and_eq_true] at hc
      have hsl : s.base.wpc = .sleeping := by
        cases hw : s.base.wpc <;> rw [hw] at hc <;> simp [WPc.isSleeping] at hc
      exact ⟨fun _ => hsl, fun _ => rfl, hi.fresh, hi.msg⟩
    · cases hs
  | spurious =>
    simp only [stepN] at hs
    split at hs
    · exact hleave (.inl rfl) hs
    · cases hs
  | base a =>
    cases a with
    | wake =>
      simp only [stepN] at hs
      split at hs
      · exact hleave (.inl rfl) hs
      · cases hs
    | timeout =>
      simp only [stepN] at hs
      split at hs
      · exact hleave (.inr rfl) hs
      · cases hs
    | start =>
      simp only [stepN] at hs
      rw [Option.map_eq_some_iff] at hs
      obtain ⟨x, hx, rfl⟩ := hs
      simp only [step] at hx
      have hne : s.base.wpc ≠ .sleeping := by intro e; rw [e] at hx; cases hx
      have hx' : x.wpc ≠ .sleeping := by
        split at hx
        · injection hx with hx; subst hx; simp [St.w]
        · injection hx with hx; subst hx; simp [St.w]
        · cases hx
      exact ⟨fun h => absurd (hi.sleeping h) hne, hi.woken, fun _ => hi.fresh hne, fun h => absurd h hx'⟩
    | worker =>
      simp only [stepN] at hs
      rw [Option.map_eq_some_iff] at hs
      obtain ⟨x, hx, rfl⟩ := hs
      obtain ⟨hne, hq⟩ := worker_to_sleep (show worker pick s.base = some x from hx)
      exact ⟨fun h => absurd (hi.sleeping h) hne, hi.woken, fun _ => hi.fresh hne, fun h hq' => absurd (hq h) hq'⟩
    | call t op =>
      simp only [stepN] at hs
      rw [Option.map_eq_some_iff] at hs
      obtain ⟨x, hx, rfl⟩ := hs
      simp only [step] at hx
      split at hx
      · next hc =>
        injection hx with hx
        have h1 : x.wpc = s.base.wpc := by subst hx; cases op <;> rfl
        have h2 : x.queue = s.base.queue := by subst hx; cases op <;> rfl
        have h3 : ∀ u, u ≠ t → x.cpc u = s.base.cpc u := by
          intro u hu
          subst hx
          cases op <;> simp [enter, St.c, hu]
        refine ⟨fun h => h1.trans (hi.sleeping h), hi.woken, fun h => hi.fresh (by rw [← h1]; exact h), fun h hq => ?_⟩
        rcases hi.msg (h1 ▸ h) (by rw [← h2]; exact hq) with a | a | ⟨u, hu⟩
        · exact .inl a
        · exact .inr (.inl a)
        · have hut : u ≠ t := by
            intro e
            rw [e, hc] at hu
            cases hu
          exact .inr (.inr ⟨u, by simp only [h3 u hut]; exact hu⟩)
      · cases hx
    | client t =>
      simp only [stepN] at hs
      rw [Option.map_eq_some_iff] at hs
      obtain ⟨x, hx, rfl⟩ := hs
      have h1 : x.wpc = s.base.wpc := client_wpc (show client s.base t = some x from hx)
      obtain ⟨h3, h4⟩ := client_queue (show client s.base t = some x from hx)
      by_cases hn : (s.base.cpc t).isNotify = true
      · rw [if_pos hn]
        refine ⟨fun h => h1.trans (hi.sleeping h), fun h => ?_, fun h => ?_, fun h hq => ?_⟩
        · simp only [Bool.or_eq_true] at h
          rcases h with h | h
          · exact hi.woken h
          · exact h
        · have hne : s.base.wpc ≠ .sleeping := by rw [← h1]; exact h
          have : s.base.wpc.isSleeping = false := by
            cases hw : s.base.wpc <;> first | rfl | exact absurd hw hne
          simp [hi.fresh hne, this]
        · have hsl : s.base.wpc.isSleeping = true := by rw [← h1, h]; rfl
          cases hb : s.blocked with
          | true => exact .inl (by simp)
          | false => exact .inr (.inl (by simp [hsl]))
      · rw [if_neg hn]
        refine ⟨fun h => h1.trans (hi.sleeping h), hi.woken, fun h => hi.fresh (by rw [← h1]; exact h), fun h hq => ?_⟩
        rcases h4 with ⟨hq', hw⟩ | hw
        · rcases hi.msg (h1 ▸ h) (by rw [← hq']; exact hq) with a | a | ⟨u, hu⟩
          · exact .inl a
          · exact .inr (.inl a)
          · by_cases hut : u = t
            · subst hut
              exact .inr (.inr ⟨u, hw hu (fun e => hn (by rw [e]; rfl))⟩)
            · exact .inr (.inr ⟨u, by simp only [h3 u hut]; exact hu⟩)
        · exact .inr (.inr ⟨t, hw⟩)

/-- **C175, partial.** When the calls that inserted the messages have returned, the sleeping worker was notified, unless a
notification came in the moment between its look at the container and its falling asleep.
Missing: that moment (`C175_counterexample`). -/
theorem C175_partial (pick : Pick α) (s : NSt α) (h : ReachN pick s) (hq : s.base.queue ≠ []) (hc : ∀ t, s.base.cpc t = .idle)
    (hm : s.missed = false) : s.base.wpc = .sleeping → s.blocked = true ∧ s.woken = true := by
  intro hw
  have hi := reachN_inv h
  rcases hi.msg hw hq with a | a | ⟨t, ht⟩
  · exact ⟨hi.woken a, a⟩
  · rw [hm] at a; cases a
  · rw [hc t] at ht; cases ht

/-- **C175:** a notified worker goes on at once: two steps later it has left the wait because of the message. -/
theorem C175_wakes (pick : Pick α) (s : NSt α) (h : ReachN pick s) (hq : s.base.queue ≠ []) (hw : s.woken = true) :
    ∃ s', execN pick s [.base .wake, .base .worker] = some s' ∧ s'.base.wpc = .testDiscard ∧ s'.base.queue = s.base.queue := by
  have hi := reachN_inv h
  have hb := hi.woken hw
  have hsl := hi.sleeping hb
  refine ⟨⟨s.base.w .testDiscard, false, false, false⟩, ?_, rfl, rfl⟩
  simp [execN, stepN, hb, hw, step, hsl, worker, St.w, hq]

/-- The worker looks at the empty container; before it falls asleep a message is inserted and the worker notified in vain. -/
def missSched : List (NAct Nat) :=
  [.base .start, .base .worker, .base .worker, .base .worker, .base .worker, .base .worker,
   .base (.call 1 (.receive 7)), .base (.client 1), .base (.client 1), .base (.client 1), .base (.client 1), .block]

/-- **C175, counterexample:** the message waits for the end of the 100 ms. -/
theorem C175_counterexample : ¬ C175_statement Nat := by
  intro h
  have he : ∃ s, execN pickFront NSt.init missSched = some s ∧ s.base.queue = [7] ∧ (∀ t, s.base.cpc t = .idle) ∧
      s.blocked = true ∧ s.woken = false := by
    refine ⟨_, rfl, rfl, ?_, rfl, rfl⟩
    intro t
    simp only [NSt.init, init, St.c, St.w, St.emit, enter]
    by_cases c : t = 1
    · subst c; rfl
    · simp [c, CPc.isNotify]
  obtain ⟨s, e, hq, hc, hb, hw⟩ := he
  have := h pickFront goodFront s ⟨_, e⟩ (by rw [hq]; simp) hc hb
  rw [hw] at this
  cases this

/-- **C175:** a worker that is blocked and was not notified can only go on at the end of the 100 ms (or by a spurious wake-up). -/
theorem C175_stuck (pick : Pick α) (s : NSt α) (h : ReachN pick s) (hb : s.blocked = true) (hw : s.woken = false) :
    stepN pick s (.base .worker) = none ∧ stepN pick s (.base .wake) = none ∧ stepN pick s .block = none ∧
      (∃ s', stepN pick s (.base .timeout) = some s' ∧ s'.base.wpc = .testDiscard) := by
  have hi := reachN_inv h
  have hsl := hi.sleeping hb
  refine ⟨by simp [stepN, step, worker, hsl], by simp [stepN, hw], by simp [stepN, hb], ⟨s.base.w .testDiscard, false, false, false⟩, ?_, rfl⟩
  simp [stepN, hb, step, hsl]

/-- The full claim for `stop`: an idle worker ends without waiting for the end of its 100 ms: once `stop` was called, some
steps of the worker without timeout lead to its end. -/
def C175_stop_statement (α : Type) : Prop :=
  ∀ (pick : Pick α), GoodPick pick → ∀ s, ReachN pick s → s.base.stopped = true → s.base.queue = [] → s.base.mtx = none →
    s.base.wpc = .sleeping →
    ∃ sched s', (∀ a ∈ sched, a = .base .worker ∨ a = .base .wake ∨ a = .block ∨ a = .spurious) ∧
      execN pick s sched = some s' ∧ s'.base.wpc = .finished

/-- **C175:** neither `stop` nor `discard_messages` wakes a worker that waits for messages: whatever is called and whoever
is notified, without a new message and without the end of the 100 ms the worker stays where it is. -/
theorem C175_stop_ignored (pick : Pick α) (sched : List (NAct α)) : ∀ (s s' : NSt α),
    (s.base.wpc = .sleeping ∨ s.base.wpc = .waitPred) → s.base.queue = [] → execN pick s sched = some s' →
    .base .timeout ∉ sched → s'.base.queue = [] → (∀ k s1, execN pick s (sched.take k) = some s1 → s1.base.queue = []) →
    s'.base.wpc = .sleeping ∨ s'.base.wpc = .waitPred := by
  induction sched with
  | nil => intro s s' hw _ e _ _ _; injection e with e; subst e; exact hw
  | cons a as ih =>
    intro s s' hw hq e ht hq' hall
    cases h1 : stepN pick s a with
    | none => simp [execN, h1] at e
    | some s1 =>
      simp only [execN, h1, Option.bind_some] at e
      have hq1 : s1.base.queue = [] := hall 1 s1 (by simp [execN, h1])
      refine ih s1 s' ?_ hq1 e (fun h => ht (by simp [h])) hq' (fun k s2 h2 => hall (k + 1) s2 (by simp [execN, h1, h2]))
      have hwake : ∀ {f : St α → NSt α}, (∀ x, (f x).base = x) → (step pick s.base .wake).map f = some s1 →
          s1.base.wpc = .sleeping ∨ s1.base.wpc = .waitPred := by
        intro f hf ho
        rw [Option.map_eq_some_iff] at ho
        obtain ⟨x, hx, rfl⟩ := ho
        rw [hf]
        simp only [step] at hx
        split at hx
        · injection hx with hx; subst hx; exact .inr rfl
        · cases hx
      cases a with
      | block =>
        simp only [stepN] at h1
        split at h1
        · injection h1 with h1; subst h1; exact hw
        · cases h1
      | spurious =>
        simp only [stepN] at h1
        split at h1
        · exact hwake (fun _ => rfl) h1
        · cases h1
      | base a =>
        cases a with
        | wake =>
          simp only [stepN] at h1
          split at h1
          · exact hwake (fun _ => rfl) h1
          · cases h1
        | timeout => exact absurd (by simp) ht
        | start =>
          simp only [stepN, step] at h1
          rcases hw with hw | hw <;> rw [hw] at h1 <;> cases h1
        | worker =>
          simp only [stepN] at h1
          rw [Option.map_eq_some_iff] at h1
          obtain ⟨x, hx, rfl⟩ := h1
          simp only [step, worker] at hx
          rcases hw with hw | hw
          · rw [hw] at hx; cases hx
          · simp only [hw, hq, List.isEmpty_nil, if_true, Option.some.injEq] at hx
            subst hx
            exact .inl rfl
        | call t op =>
          simp only [stepN] at h1
          rw [Option.map_eq_some_iff] at h1
          obtain ⟨x, hx, rfl⟩ := h1
          simp only [step] at hx
          split at hx
          · injection hx with hx
            have : x.wpc = s.base.wpc := by subst hx; cases op <;> rfl
            show x.wpc = _ ∨ x.wpc = _
            rw [this]
            exact hw
          · cases hx
        | client t =>
          simp only [stepN] at h1
          rw [Option.map_eq_some_iff] at h1
          obtain ⟨x, hx, rfl⟩ := h1
          have : x.wpc = s.base.wpc := client_wpc (show client s.base t = some x from hx)
          split
          all_goals
            show x.wpc = _ ∨ x.wpc = _
            rw [this]
            exact hw

/-- The steps of the worker alone never insert a message. -/
theorem own_queue (pick : Pick α) (sched : List (NAct α)) : ∀ (s s' : NSt α),
    (∀ a ∈ sched, a = .base .worker ∨ a = .base .wake ∨ a = .block ∨ a = .spurious) →
    (s.base.wpc = .sleeping ∨ s.base.wpc = .waitPred) → s.base.queue = [] → execN pick s sched = some s' → s'.base.queue = [] ∧
    (s'.base.wpc = .sleeping ∨ s'.base.wpc = .waitPred) := by
  induction sched with
  | nil => intro s s' _ hw hq e; injection e with e; subst e; exact ⟨hq, hw⟩
  | cons a as ih =>
    intro s s' ha hw hq e
    cases h1 : stepN pick s a with
    | none => simp [execN, h1] at e
    | some s1 =>
      simp only [execN, h1, Option.bind_some] at e
      have hwake : ∀ {f : St α → NSt α}, (∀ x, (f x).base = x) → (step pick s.base .wake).map f = some s1 →
          s1.base.queue = [] ∧ (s1.base.wpc = .sleeping ∨ s1.base.wpc = .waitPred) := by
        intro f hf ho
        rw [Option.map_eq_some_iff] at ho
        obtain ⟨x, hx, rfl⟩ := ho
        rw [hf]
        simp only [step] at hx
        split at hx
        · injection hx with hx; subst hx; exact ⟨hq, .inr rfl⟩
        · cases hx
      have : s1.base.queue = [] ∧ (s1.base.wpc = .sleeping ∨ s1.base.wpc = .waitPred) := by
        rcases ha a (by simp) with rfl | rfl | rfl | rfl
        · simp only [stepN] at h1
          rw [Option.map_eq_some_iff] at h1
          obtain ⟨x, hx, rfl⟩ := h1
          simp only [step, worker] at hx
          rcases hw with hw | hw
          · rw [hw] at hx; cases hx
          · simp only [hw, hq, List.isEmpty_nil, if_true, Option.some.injEq] at hx
            subst hx
            exact ⟨hq, .inl rfl⟩
        · simp only [stepN] at h1
          split at h1
          · exact hwake (fun _ => rfl) h1
          · cases h1
        · simp only [stepN] at h1
          split at h1
          · injection h1 with h1; subst h1; exact ⟨hq, hw⟩
          · cases h1
        · simp only [stepN] at h1
          split at h1
          · exact hwake (fun _ => rfl) h1
          · cases h1
      exact ih s1 s' (fun b hb => ha b (by simp [hb])) this.2 this.1 e

/-- The worker sleeps; `stop` is called and notifies it. -/
def stopSched : List (NAct Nat) :=
  [.base .start, .base .worker, .base .worker, .base .worker, .base .worker, .base .worker, .block,
   .base (.call 1 .stop), .base (.client 1), .base (.client 1)]

/-- **C175, counterexample:** the notification of `stop` has no effect on an idle queue: the predicate of the wait does not look
at `_stopped`. -/
theorem C175_counterexample_stop : ¬ C175_stop_statement Nat := by
  intro h
  have he : ∃ s, execN pickFront NSt.init stopSched = some s ∧ s.base.stopped = true ∧ s.base.queue = [] ∧ s.base.mtx = none ∧
      s.base.wpc = .sleeping := ⟨_, rfl, rfl, rfl, rfl, rfl⟩
  obtain ⟨s, e, h1, h2, h3, h4⟩ := he
  obtain ⟨sched, s', ha, es, hf⟩ := h pickFront goodFront s ⟨_, e⟩ h1 h2 h3 h4
  obtain ⟨-, hw⟩ := own_queue pickFront sched s s' ha (.inl h4) h2 es
  rcases hw with hw | hw <;> rw [hf] at hw <;> cases hw

/-- **C175:** one end of the 100 ms suffices: after `stop`, an idle worker that has nothing to discard then ends by its own steps. -/
theorem C175_stop_timeout (pick : Pick α) (s : NSt α) (h : ReachN pick s) (hs : s.base.stopped = true) (hq : s.base.queue = [])
    (hd : s.base.discard = false) (hb : s.blocked = true) :
    ∃ s', execN pick s (.base .timeout :: List.replicate 5 (.base .worker)) = some s' ∧ s'.base.wpc = .finished := by
  have hsl := (reachN_inv h).sleeping hb
  simp [execN, stepN, hb, step, hsl, worker, St.w, St.emit, hq, hd, hs, List.replicate]

/-- A message that comes while the worker is blocked. -/
example : (execN pickFront NSt.init ([.base .start, .base .worker, .base .worker, .base .worker, .base .worker, .base .worker, .block,
    .base (.call 1 (.receive 7)), .base (.client 1), .base (.client 1), .base (.client 1), .base (.client 1)] : List (NAct Nat))).map
      (fun s => (s.base.queue, s.blocked, s.woken, s.missed)) = some ([7], true, true, false) := by decide

end Verif.MsgQueue
