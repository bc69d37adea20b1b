import Verif.Conc.TimerProps

/-!
C181: a `stop` that takes effect ends the thread of the timer, timer.h:124-151.

C101 says when the cleared flag stays cleared (`Stopped`). From then on every step of the thread, also the end of a wait and the return
of a callback, brings it nearer to its end, whatever the other threads and the clocks do; it falls asleep at most once more, and it is
never stuck, except behind a destructor that holds the mutex and can always give it back.
-/

namespace Verif.Timer

/-- The steps of the thread in a schedule. -/
def threadSteps (sched : List Act) : Nat :=
  sched.countP fun a => match a with | .thread | .ret _ | .timeout | .wake => true | _ => false

/-- How often the thread has fallen asleep: it goes from line 134 to sleep by a step of its own. -/
def sleeps : St → List Act → Nat
  | _, [] => 0
  | s, a :: as =>
    match step s a with
    | none => 0
    | some s' => (if s.pc = .wait ∧ a = .thread then 1 else 0) + sleeps s' as

/-- Steps of the thread to its end once the timer is stopped. -/
def Pc.toEnd : Pc → Nat
  | .testForced _ => 14 | .call => 13 | .inCall => 12 | .clearForced => 11 | .loadRunning => 10 | .storeRunning _ => 9
  | .setRem => 8 | .adjRem => 8 | .reset => 7
  | .lock => 11 | .wait => 10 | .waiting => 9 | .relock _ => 8 | .testRunning _ => 7 | .unlock => 6 | .stamp => 6 | .loopTest => 5
  | .stopLock => 4 | .stopBody => 3 | .stopUnlock => 2 | .finish => 1 | .finished => 0
  | _ => 0

/-- Past the test of line 132, not yet asleep. -/
def Pc.sleepy : Pc → Nat
  | .lock | .wait => 1
  | _ => 0

theorem toEnd_step {s s' : St} {a : Act} (ha : a ≠ .start) (h : Stopped s) (hs : step s a = some s') :
    threadSteps [a] + s'.pc.toEnd ≤ s.pc.toEnd ∧
      (if s.pc = .wait ∧ a = .thread then 1 else 0) + s'.pc.sleepy ≤ s.pc.sleepy := by
  obtain ⟨hr, hp⟩ := h
  cases a with
  | start => exact absurd rfl ha
  | thread =>
    simp only [step, thread] at hs
    cases hw : s.pc <;> rw [hw] at hs hp <;> simp only [Pc.listening, reduceCtorEq, Bool.false_eq_true] at hs hp
    case testForced tmo =>
      injection hs with hs
      split at hs <;> subst hs <;> simp [St.goto, Pc.toEnd, Pc.sleepy, threadSteps]
    all_goals (try simp only [hr, Bool.false_eq_true, if_false] at hs)
    all_goals (try split at hs)
    all_goals (first | cases hs; done | (injection hs with hs))
    all_goals (try split at hs)
    all_goals (subst hs)
    all_goals (simp [St.goto, St.emit, Pc.toEnd, Pc.sleepy, threadSteps])
  | ret v =>
    simp only [step] at hs
    split at hs
    · rename_i hw
      injection hs with hs; subst hs; simp [hw, St.goto, St.emit, Pc.toEnd, Pc.sleepy, threadSteps]
    · cases hs
  | timeout =>
    simp only [step] at hs
    split at hs
    · rename_i hw
      injection hs with hs; subst hs; simp [hw.1, St.goto, Pc.toEnd, Pc.sleepy, threadSteps]
    · cases hs
  | wake =>
    simp only [step] at hs
    split at hs
    · rename_i hw
      injection hs with hs; subst hs; simp [hw, St.goto, Pc.toEnd, Pc.sleepy, threadSteps]
    · cases hs
  | tick d => injection hs with hs; subst hs; simp [threadSteps]
  | adjust d => injection hs with hs; subst hs; simp [threadSteps]
  | call t op =>
    simp only [step] at hs
    split at hs
    · injection hs with hs; subst hs; simp [St.c, threadSteps]
    · cases hs
  | client t =>
    simp only [step, client] at hs
    split at hs
    all_goals (try split at hs)
    all_goals (first | cases hs; done | (injection hs with hs; subst hs))
    all_goals simp [St.c, St.emit, threadSteps]

theorem toEnd_le (p : Pc) : p.toEnd ≤ 14 := by cases p <;> simp [Pc.toEnd]

/-- **C181:** once a `stop` has taken effect, the thread takes at most 14 further steps before the next `start()`, whatever the other
threads, the clocks and the callbacks do; it falls asleep at most once more, and not at all unless it had passed the test of the loop
(line 132) already. -/
theorem C181_bounded (sched : List Act) (s s' : St) (h : Stopped s) (hn : .start ∉ sched) (he : exec s sched = some s') :
    threadSteps sched ≤ 14 ∧ sleeps s sched ≤ (if s.pc = .lock ∨ s.pc = .wait then 1 else 0) := by
  have key : ∀ (sched : List Act) (s s' : St), Stopped s → .start ∉ sched → exec s sched = some s' →
      threadSteps sched + s'.pc.toEnd ≤ s.pc.toEnd ∧ sleeps s sched + s'.pc.sleepy ≤ s.pc.sleepy := by
    intro sched
    induction sched with
    | nil => intro s s' _ _ hs; injection hs with hs; subst hs; simp [threadSteps, sleeps]
    | cons a as ih =>
      intro s s' h hn hs
      cases h1 : step s a with
      | none => simp [exec, h1] at hs
      | some s1 =>
        rw [exec_cons h1] at hs
        have hns : a ≠ .start := fun e => hn (by simp [e])
        obtain ⟨h2, h2'⟩ := toEnd_step hns h h1
        obtain ⟨h3, h3'⟩ := ih s1 s' (stopped_step hns h h1).1 (fun e => hn (by simp [e])) hs
        simp only [threadSteps, List.countP_cons, List.countP_nil] at h2 h3 ⊢
        simp only [sleeps, h1]
        omega
  obtain ⟨h1, h2⟩ := key sched s s' h hn he
  have h3 := toEnd_le s.pc
  have h4 : s.pc.sleepy ≤ (if s.pc = .lock ∨ s.pc = .wait then 1 else 0) := by cases s.pc <;> simp [Pc.sleepy]
  exact ⟨by omega, by omega⟩

/-- **C181:** before its end the thread of a reachable timer can always go on by itself, or it is asleep (then it may be woken at any
moment, and time-out comes as soon as the clock has passed its deadline), or the user's `on_interval` is being executed, or the
destructor of the timer holds the mutex, and that destructor can go on. -/
theorem C181_never_stuck (ms : Nat) (s : St) (h : Reach ms s) (hi : s.pc ≠ .idle) (hf : s.pc ≠ .finished) :
    (∃ s', step s .thread = some s') ∨
    (s.pc = .waiting ∧ (∃ s', step s .wake = some s') ∧ ∃ d s', exec s [.tick d, .timeout] = some s') ∨
    (s.pc = .inCall ∧ ∀ v, ∃ s', step s (.ret v) = some s') ∨
    ∃ t s', s.mtx = some (.client t) ∧ step s (.client t) = some s' := by
  have hown := own_inv h
  have lock : s.pc.owns = false → s.mtx = none ∨ ∃ t s', s.mtx = some (.client t) ∧ step s (.client t) = some s' := by
    intro ho
    cases hm : s.mtx with
    | none => exact .inl rfl
    | some o =>
      cases o with
      | thread => have := hown.1.2 hm; rw [ho] at this; cases this
      | client t =>
        have := (hown.2 t).2 hm
        refine .inr ⟨t, ?_⟩
        simp only [step, client]
        cases hc : s.cpc t <;> rw [hc] at this <;> simp [CPc.owns] at this <;> simp
  cases hw : s.pc <;> rw [hw] at hi hf lock <;> simp only [ne_eq, not_true_eq_false] at hi hf
  case waiting =>
    right; left
    refine ⟨rfl, by simp [step, hw], (s.deadline - s.now).toNat, ?_⟩
    have : s.deadline ≤ s.now + ((s.deadline - s.now).toNat : Nat) := by omega
    simp only [exec, step, Option.bind_some, hw, true_and, this, if_true, Option.some.injEq, exists_eq']
  case inCall => right; right; left; exact ⟨rfl, fun v => by simp [step, hw]⟩
  case startLock =>
    rcases lock rfl with hm | hm
    · left; simp [step, thread, hw, hm]
    · exact .inr (.inr (.inr hm))
  case lock =>
    rcases lock rfl with hm | hm
    · left; simp [step, thread, hw, hm]
    · exact .inr (.inr (.inr hm))
  case relock tmo =>
    rcases lock rfl with hm | hm
    · left; simp [step, thread, hw, hm]
    · exact .inr (.inr (.inr hm))
  case stopLock =>
    rcases lock rfl with hm | hm
    · left; simp [step, thread, hw, hm]
    · exact .inr (.inr (.inr hm))
  all_goals (left; simp [step, thread, hw])

/-- **C181:** so it comes to its end by its own steps, the returns of its callbacks and the passing of time alone. -/
theorem C181_ends (ms : Nat) (s : St) (h : Reach ms s) (hs : Stopped s) (hm : ∀ t, s.mtx ≠ some (.client t)) :
    ∃ sched s', ByThread sched ∧ sched.length ≤ 38 ∧ exec s sched = some s' ∧ s'.pc = .finished :=
  finish_from 19 s (by cases s.pc <;> simp [Pc.rank]) hs (own_inv h) hm

/-- The bounds are reached: `stop` clears the flag between lines 135 and 136, and the thread takes 14 more steps; `stop` clears it between
lines 132 and 133, and the thread falls asleep once more. -/
theorem C181_tight :
    (∃ s s' : St, Reach 100 s ∧ Stopped s ∧ ∃ sched, .start ∉ sched ∧ exec s sched = some s' ∧ threadSteps sched = 14) ∧
    (∃ s s' : St, Reach 100 s ∧ Stopped s ∧ ∃ sched, .start ∉ sched ∧ exec s sched = some s' ∧ sleeps s sched = 1) := by
  have key : ∀ (p sched : List Act) (n k : Nat), .start ∉ sched → ((exec (init 100) p).bind fun s =>
      (exec s sched).map fun _ => (s.isRunning, s.pc.listening, threadSteps sched, sleeps s sched)) = some (false, true, n, k) →
      ∃ s s' : St, Reach 100 s ∧ Stopped s ∧ exec s sched = some s' ∧ threadSteps sched = n ∧ sleeps s sched = k := by
    intro p sched n k hn h
    rw [Option.bind_eq_some_iff] at h
    obtain ⟨s, h1, h2⟩ := h
    rw [Option.map_eq_some_iff] at h2
    obtain ⟨s', h3, h4⟩ := h2
    injection h4 with h4 h5; injection h5 with h5 h6; injection h6 with h6 h7
    exact ⟨s, s', ⟨_, h1⟩, ⟨h4, h5⟩, h3, h6, h7⟩
  constructor
  · have hn : Act.start ∉ [Act.thread, .thread, .ret 0] ++ List.replicate 11 .thread := by decide
    obtain ⟨s, s', h1, h2, h3, h4, _⟩ := key
      ([.start] ++ List.replicate 9 .thread ++ [.tick 100000000, .timeout, .thread, .thread, .call 7 .stop, .client 7])
      ([.thread, .thread, .ret 0] ++ List.replicate 11 .thread) 14 0 hn (by decide +kernel)
    exact ⟨s, s', h1, h2, _, hn, h3, h4⟩
  · have hn : Act.start ∉ [Act.thread, .thread, .wake] ++ List.replicate 8 .thread := by decide
    obtain ⟨s, s', h1, h2, h3, _, h5⟩ := key
      ([.start] ++ List.replicate 7 .thread ++ [.call 7 .stop, .client 7])
      ([.thread, .thread, .wake] ++ List.replicate 8 .thread) 11 1 hn (by decide +kernel)
    exact ⟨s, s', h1, h2, _, hn, h3, h5⟩

end Verif.Timer
