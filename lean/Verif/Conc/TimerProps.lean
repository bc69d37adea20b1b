import Mathlib.Tactic.ByContra
import Verif.Conc.TimerModel

/-
C101-C104, C113 and C114: the timer.
-/

namespace Verif.Timer

theorem exec_cons {s s' : St} {a : Act} {as : List Act} (h : step s a = some s') : exec s (a :: as) = exec s' as := by
  simp [exec, h]

theorem exec_append (as bs : List Act) : ∀ s : St, exec s (as ++ bs) = (exec s as).bind fun s' => exec s' bs := by
  induction as with
  | nil => intro s; rfl
  | cons a as ih =>
    intro s
    simp only [List.cons_append, exec]
    cases step s a with
    | none => rfl
    | some s1 => exact ih s1

/-- Induction along a schedule whose labels satisfy `A`. -/
theorem exec_ind {P : St → Prop} {A : Act → Prop} (hstep : ∀ s a s', A a → P s → step s a = some s' → P s') :
    ∀ (sched : List Act) (s s' : St), (∀ a ∈ sched, A a) → P s → exec s sched = some s' → P s' := by
  intro sched
  induction sched with
  | nil => intro s s' _ hp hs; injection hs with hs; subst hs; exact hp
  | cons a as ih =>
    intro s s' ha hp hs
    cases h1 : step s a with
    | none => simp [exec, h1] at hs
    | some s1 =>
      rw [exec_cons h1] at hs
      exact ih s1 s' (fun b hb => ha b (by simp [hb])) (hstep s a s1 (ha a (by simp)) hp h1) hs

theorem reach_ind {ms : Nat} {P : St → Prop} (h0 : P (init ms)) (hstep : ∀ s a s', P s → step s a = some s' → P s')
    {s : St} (h : Reach ms s) : P s := by
  obtain ⟨sched, hs⟩ := h
  exact exec_ind (A := fun _ => True) (fun s a s' _ => hstep s a s') sched _ _ (by simp) h0 hs

/-- The calls of `on_interval`. -/
def intervals : List Event → Nat
  | [] => 0
  | .interval _ :: l => intervals l + 1
  | _ :: l => intervals l

theorem intervals_append (l1 l2 : List Event) : intervals (l1 ++ l2) = intervals l1 + intervals l2 := by
  induction l1 with
  | nil => simp [intervals]
  | cons e l1 ih => cases e <;> simp [intervals, ih]; omega

/-! ### C101 -/

/-- The full claim of C101: once `stop` has been called in a run, at most the call of `on_interval` that is under way
still happens in that run. -/
def C101_statement : Prop :=
  ∀ ms s, Reach ms s → ∀ l1 t l2, s.log = l1 ++ .stopStored t :: l2 → .entered ∈ l2 → .entered ∉ l1 → intervals l1 ≤ 1

/-- The thread has been started and has executed `on_start`; now `stop` is called; then the thread goes on and sets
`_is_running`. -/
def lostPrefix : List Act :=
  [.start, .thread, .thread, .thread, .call 7 .stop, .client 7, .client 7, .client 7, .thread, .thread, .thread]

/-- One turn of the loop that ends with a call of `on_interval`. -/
def turn (ms : Nat) : List Act :=
  [.thread, .thread, .thread, .tick (ms * 1000000), .timeout, .thread, .thread, .thread, .thread, .ret 0,
   .thread, .thread, .thread, .thread, .thread, .thread]

/-- At the head of the loop, undisturbed. -/
structure AtLoop (ms : Nat) (s : St) : Prop where
  pc  : s.pc = .loopTest
  run : s.isRunning = true
  mtx : s.mtx = none
  int : s.interval = ms
  rem : s.rem = ms

theorem turn_ok {ms : Nat} {s : St} (h : AtLoop ms s) :
    ∃ s' t1 t2, exec s (turn ms) = some s' ∧ AtLoop ms s' ∧ s'.log = .returned 0 t1 :: .interval t2 :: s.log := by
  obtain ⟨isRunning, forced, deleted, interval, mtx, rem, code, stamp, deadline, now, wall, pc, cpc, log, stampAt⟩ := s
  obtain ⟨h1, h2, h3, h4, h5⟩ := h
  simp only at h1 h2 h3 h4 h5
  subst h1 h2 h3 h4 h5
  have hd : now + (ms : Int) * K ≤ now + ((ms * 1000000 : Nat) : Int) := by
    unfold K; omega
  refine ⟨⟨true, false, deleted, ms, none, ms, 0, wall + ((ms * 1000000 : Nat) : Int), now + ms * K,
    now + ((ms * 1000000 : Nat) : Int), wall + ((ms * 1000000 : Nat) : Int), .loopTest, cpc,
    .returned 0 (now + ((ms * 1000000 : Nat) : Int)) :: .interval (now + ((ms * 1000000 : Nat) : Int)) :: log,
    now + ((ms * 1000000 : Nat) : Int)⟩, _, _, ?_, ⟨rfl, rfl, rfl, rfl, rfl⟩, rfl⟩
  simp only [turn, exec, step, thread, St.goto, St.emit, Option.bind_some, if_true, hd, and_self, Bool.true_or,
    BEq.rfl, Bool.and_self]

/-- `n` turns. -/
theorem turns_ok {ms : Nat} : ∀ (n : Nat) {s : St}, AtLoop ms s → ∃ sched s' l, exec s sched = some s' ∧ AtLoop ms s' ∧
    s'.log = l ++ s.log ∧ intervals l = n ∧ .entered ∉ l := by
  intro n
  induction n with
  | zero => intro s h; exact ⟨[], s, [], rfl, h, rfl, rfl, by simp⟩
  | succ n ih =>
    intro s h
    obtain ⟨s1, t1, t2, e1, h1, l1⟩ := turn_ok h
    obtain ⟨sched, s2, l, e2, h2, l2, c2, n2⟩ := ih h1
    refine ⟨turn ms ++ sched, s2, l ++ [.returned 0 t1, .interval t2], by rw [exec_append, e1]; exact e2, h2, ?_, ?_, ?_⟩
    · rw [l2, l1]; simp
    · rw [intervals_append, c2]; rfl
    · simp [n2]

/-- C101 fails, for every interval, as badly as possible: `stop` called before the thread sets `_is_running` is lost, any
number of calls of `on_interval` follow, and the timer still runs. -/
theorem C101_counterexample_all (ms n : Nat) : ∃ s l1 t l2, Reach ms s ∧ s.log = l1 ++ .stopStored t :: l2 ∧
    .entered ∈ l2 ∧ .entered ∉ l1 ∧ intervals l1 = n ∧ s.pc ≠ .finished := by
  have h0 : ∃ s, exec (init ms) lostPrefix = some s ∧ AtLoop ms s ∧
      s.log = [.begun 0, .stopOnStop 7] ++ .stopStored 7 :: [.onStart, .entered] := by
    exact ⟨_, rfl, ⟨rfl, rfl, rfl, rfl, rfl⟩, rfl⟩
  obtain ⟨s0, e0, a0, l0⟩ := h0
  obtain ⟨sched, s, l, e, a, hl, hc, hn⟩ := turns_ok n a0
  refine ⟨s, l ++ [.begun 0, .stopOnStop 7], 7, [.onStart, .entered], ⟨lostPrefix ++ sched, by rw [exec_append, e0]; exact e⟩,
    ?_, by simp, by simp [hn], ?_, by rw [a.pc]; simp⟩
  · rw [hl, l0]; simp
  · rw [intervals_append, hc]; rfl

theorem C101_counterexample : ¬ C101_statement := by
  intro h
  obtain ⟨s, l1, t, l2, hr, hl, h1, h2, h3, _⟩ := C101_counterexample_all 100 2
  have := h 100 s hr l1 t l2 hl h1 h2
  omega

set_option synthInstance.maxSize 1000 in
/-- The second window: `_is_running = _is_running && …` reads the flag, `stop` clears it, the thread writes it back. -/
theorem C101_counterexample_store : ∃ s l1 l2, Reach 100 s ∧ s.log = l1 ++ .stopStored 7 :: l2 ∧ .begun 0 ∈ l2 ∧
    .entered ∉ l1 ∧ intervals l1 = 1 ∧ AtLoop 100 s := by
  have hk : (exec (init 100) ([.start, .thread, .thread, .thread, .thread, .thread, .thread, .thread, .thread, .thread,
      .tick 100000000, .timeout, .thread, .thread, .thread, .thread, .ret 0, .thread, .thread,
      .call 7 .stop, .client 7, .client 7, .client 7, .thread, .thread, .thread, .thread] ++ turn 100)).map
      (fun s => ((s.pc, s.isRunning, s.mtx, s.interval, s.rem), s.log)) =
    some ((.loopTest, true, none, 100, 100),
      [.returned 0 200000000, .interval 200000000, .stopOnStop 7, .stopStored 7, .returned 0 100000000,
       .interval 100000000, .begun 0, .onStart, .entered]) := by decide +kernel
  cases hs : exec (init 100) ([.start, .thread, .thread, .thread, .thread, .thread, .thread, .thread, .thread, .thread,
      .tick 100000000, .timeout, .thread, .thread, .thread, .thread, .ret 0, .thread, .thread,
      .call 7 .stop, .client 7, .client 7, .client 7, .thread, .thread, .thread, .thread] ++ turn 100) with
  | none => rw [hs] at hk; cases hk
  | some s =>
    rw [hs] at hk
    simp only [Option.map_some, Option.some.injEq, Prod.mk.injEq] at hk
    obtain ⟨⟨h1, h2, h3, h4, h5⟩, h6⟩ := hk
    exact ⟨s, [.returned 0 200000000, .interval 200000000, .stopOnStop 7], _, ⟨_, hs⟩, h6, by simp, by simp, rfl,
      ⟨h1, h2, h3, h4, h5⟩⟩

/-- Where a cleared `_is_running` stays cleared: after the thread has set the flag, and not between the load and the
store of line 139. -/
def Pc.listening : Pc → Bool
  | .idle | .enter | .startLock | .startBody | .startUnlock | .setRunning | .storeRunning true => false
  | _ => true

/-- Past the test of the flag on line 135: `on_interval` may still be called once. -/
def Pc.committed : Pc → Nat
  | .testForced _ | .call => 1
  | _ => 0

structure Stopped (s : St) : Prop where
  run : s.isRunning = false
  pc  : s.pc.listening = true

theorem stopped_step {s s' : St} {a : Act} (ha : a ≠ .start) (h : Stopped s) (hs : step s a = some s') :
    Stopped s' ∧ intervals s'.log + s'.pc.committed ≤ intervals s.log + s.pc.committed := by
  obtain ⟨hr, hp⟩ := h
  cases a with
  | start => exact absurd rfl ha
  | thread =>
    simp only [step, thread] at hs
    cases hw : s.pc <;> rw [hw] at hs hp <;> simp only [Pc.listening, reduceCtorEq, Bool.false_eq_true] at hs hp
    case storeRunning b =>
      cases b with
      | true => simp at hp
      | false =>
        injection hs with hs; subst hs
        exact ⟨⟨rfl, rfl⟩, by simp [St.goto, Pc.committed]⟩
    case testForced tmo =>
      injection hs with hs
      split at hs <;> subst hs
      · exact ⟨⟨hr, rfl⟩, by simp [St.goto, Pc.committed]⟩
      · exact ⟨⟨hr, rfl⟩, by simp [St.goto, Pc.committed]⟩
    all_goals (try simp only [hr, Bool.false_eq_true, if_false] at hs)
    all_goals (try split at hs)
    all_goals (first | cases hs; done | (injection hs with hs))
    all_goals (try split at hs)
    all_goals (subst hs)
    all_goals (refine ⟨⟨by simp [St.goto, St.emit, hr], by simp [St.goto, St.emit, Pc.listening]⟩, ?_⟩)
    all_goals (simp [St.goto, St.emit, Pc.committed, intervals])
  | ret v =>
    simp only [step] at hs
    split at hs
    · rename_i hw
      injection hs with hs; subst hs
      exact ⟨⟨hr, rfl⟩, by simp [St.goto, St.emit, Pc.committed, intervals]⟩
    · cases hs
  | timeout =>
    simp only [step] at hs
    split at hs
    · injection hs with hs; subst hs
      exact ⟨⟨hr, rfl⟩, by simp [St.goto, Pc.committed]⟩
    · cases hs
  | wake =>
    simp only [step] at hs
    split at hs
    · injection hs with hs; subst hs
      exact ⟨⟨hr, rfl⟩, by simp [St.goto, Pc.committed]⟩
    · cases hs
  | tick d => injection hs with hs; subst hs; exact ⟨⟨hr, hp⟩, Nat.le_refl _⟩
  | adjust d => injection hs with hs; subst hs; exact ⟨⟨hr, hp⟩, Nat.le_refl _⟩
  | call t op =>
    simp only [step] at hs
    split at hs
    · injection hs with hs; subst hs; exact ⟨⟨hr, hp⟩, Nat.le_refl _⟩
    · cases hs
  | client t =>
    simp only [step, client] at hs
    split at hs
    all_goals (try split at hs)
    all_goals (first | cases hs; done | (injection hs with hs; subst hs))
    all_goals (refine ⟨⟨by simp [St.c, St.emit, hr], hp⟩, by simp [St.c, St.emit, intervals]⟩)

theorem stopped_exec : ∀ (sched : List Act) {s s' : St}, .start ∉ sched → Stopped s → exec s sched = some s' →
    Stopped s' ∧ intervals s'.log + s'.pc.committed ≤ intervals s.log + s.pc.committed := by
  intro sched
  induction sched with
  | nil => intro s s' _ h hs; injection hs with hs; subst hs; exact ⟨h, Nat.le_refl _⟩
  | cons a as ih =>
    intro s s' hn h hs
    cases h1 : step s a with
    | none => simp [exec, h1] at hs
    | some s1 =>
      rw [exec_cons h1] at hs
      obtain ⟨h2, h3⟩ := stopped_step (fun e => hn (by simp [e])) h h1
      obtain ⟨h4, h5⟩ := ih (fun e => hn (by simp [e])) h2 hs
      exact ⟨h4, by omega⟩

/-- The mutex is held by the thread exactly in these places. -/
def Pc.owns : Pc → Bool
  | .startBody | .startUnlock | .wait | .testRunning _ | .testForced _ | .call | .inCall | .clearForced | .loadRunning
  | .storeRunning _ | .setRem | .adjRem | .reset | .unlock | .stopBody | .stopUnlock => true
  | _ => false

def CPc.owns : CPc → Bool
  | .deleteStore | .deleteUnlock => true
  | _ => false

def Own (s : St) : Prop :=
  (s.pc.owns = true ↔ s.mtx = some .thread) ∧ ∀ t, (s.cpc t).owns = true ↔ s.mtx = some (.client t)

theorem own_step {s s' : St} {a : Act} (hi : Own s) (hs : step s a = some s') : Own s' := by
  obtain ⟨hi, hc⟩ := hi
  cases a with
  | start =>
    simp only [step] at hs
    split at hs
    · rename_i hw
      injection hs with hs; subst hs
      refine ⟨?_, hc⟩
      rcases hw with hw | hw <;> rw [hw] at hi <;> exact hi
    · cases hs
  | thread =>
    simp only [step, thread] at hs
    have hno : s.mtx = some .thread → ∀ t, (s.cpc t).owns = false := by
      intro hm t
      cases hx : (s.cpc t).owns with
      | false => rfl
      | true => have := (hc t).mp hx; rw [hm] at this; cases this
    have hno' : s.mtx = none → ∀ t, (s.cpc t).owns = false := by
      intro hm t
      cases hx : (s.cpc t).owns with
      | false => rfl
      | true => have := (hc t).mp hx; rw [hm] at this; cases this
    cases hw : s.pc <;> rw [hw] at hs hi <;> simp only [Pc.owns, reduceCtorEq, true_iff, Bool.false_eq_true, false_iff] at hs hi
    all_goals (try split at hs)
    all_goals (first | cases hs; done | (injection hs with hs))
    all_goals (try split at hs)
    all_goals (subst hs)
    all_goals (try split)
    all_goals (first
      | exact ⟨by simp [St.goto, St.emit, Pc.owns, hi], hc⟩
      | (refine ⟨by simp [St.goto, St.emit, Pc.owns], fun t => ?_⟩
         first
         | (have := hno hi t; simp [St.goto, St.emit, this]; done)
         | (rename_i hm; have := hno' hm t; simp [St.goto, St.emit, this])))
  | ret v =>
    simp only [step] at hs
    split at hs
    · rename_i hw; injection hs with hs; subst hs; rw [hw] at hi; exact ⟨hi, hc⟩
    · cases hs
  | timeout =>
    simp only [step] at hs
    split at hs
    · rename_i hw; injection hs with hs; subst hs; rw [hw.1] at hi; exact ⟨hi, hc⟩
    · cases hs
  | wake =>
    simp only [step] at hs
    split at hs
    · rename_i hw; injection hs with hs; subst hs; rw [hw] at hi; exact ⟨hi, hc⟩
    · cases hs
  | tick d => injection hs with hs; subst hs; exact ⟨hi, hc⟩
  | adjust d => injection hs with hs; subst hs; exact ⟨hi, hc⟩
  | call t op =>
    simp only [step] at hs
    split at hs
    · rename_i hw
      injection hs with hs; subst hs
      refine ⟨hi, fun u => ?_⟩
      have hu := hc u
      by_cases e : u = t
      · subst e
        rw [hw] at hu
        cases op <;> simpa [St.c, entry, CPc.owns] using hu
      · simpa [St.c, e] using hu
    · cases hs
  | client t =>
    have ht := hc t
    simp only [step, client] at hs
    cases hw : s.cpc t <;> rw [hw] at hs ht <;> simp only [CPc.owns, reduceCtorEq, true_iff, Bool.false_eq_true, false_iff] at hs ht
    case deleteLock =>
      split at hs
      · rename_i hm
        injection hs with hs; subst hs
        refine ⟨?_, fun u => ?_⟩
        · rw [hm] at hi
          simpa [St.c] using hi
        · have hu := hc u
          rw [hm] at hu
          by_cases e : u = t
          · subst e; simp [St.c, CPc.owns]
          · have e' : ¬ t = u := fun h => e h.symm
            simpa [St.c, e, e'] using hu
      · cases hs
    case deleteUnlock =>
      injection hs with hs; subst hs
      refine ⟨?_, fun u => ?_⟩
      · rw [ht] at hi
        simpa [St.c] using hi
      · have hu := hc u
        rw [ht] at hu
        by_cases e : u = t
        · subst e; simp [St.c, CPc.owns]
        · have e' : ¬ t = u := fun h => e h.symm
          simpa [St.c, e, e'] using hu
    all_goals
      injection hs with hs; subst hs
      refine ⟨hi, fun u => ?_⟩
      have hu := hc u
      by_cases e : u = t
      · subst e
        simpa [St.c, St.emit, CPc.owns] using ht
      · simpa [St.c, St.emit, e] using hu

theorem own_inv {ms : Nat} {s : St} (h : Reach ms s) : Own s :=
  reach_ind (P := Own) (by constructor <;> simp [init, Pc.owns, CPc.owns]) (fun _ _ _ => own_step) h

/-- The steps of the thread, its callbacks and the passing of time. -/
def ByThread (sched : List Act) : Prop := ∀ a ∈ sched, a = .thread ∨ a = .ret 0 ∨ a = .timeout ∨ ∃ d, a = .tick d

/-- Steps to the end once the timer is stopped. -/
def Pc.rank : Pc → Nat
  | .stamp => 6 | .loopTest => 5 | .stopLock => 4 | .stopBody => 3 | .stopUnlock => 2 | .finish => 1 | .finished => 0
  | .unlock => 6 | .reset => 7 | .setRem => 8 | .adjRem => 8 | .storeRunning _ => 9 | .loadRunning => 10
  | .clearForced => 11 | .inCall => 12 | .call => 13 | .testForced _ => 14 | .testRunning _ => 15
  | .relock _ => 16 | .waiting => 17 | .wait => 18 | .lock => 19
  | _ => 0

theorem finish_from : ∀ (n : Nat) (s : St), s.pc.rank ≤ n → Stopped s → Own s → (∀ t, s.mtx ≠ some (.client t)) →
    ∃ sched s', ByThread sched ∧ sched.length ≤ 2 * n ∧ exec s sched = some s' ∧ s'.pc = .finished := by
  intro n
  induction n with
  | zero =>
    intro s hn h _ _
    have hp := h.pc
    cases hw : s.pc <;> rw [hw] at hn hp <;> simp [Pc.rank, Pc.listening] at hn hp
    exact ⟨[], s, by simp [ByThread], by simp, rfl, hw⟩
  | succ n ih =>
    intro s hn h hown hm
    have go : ∀ (as : List Act) s', ByThread as → as.length ≤ 2 → .start ∉ as → exec s as = some s' → s'.pc.rank < s.pc.rank →
        Own s' → (∀ t, s'.mtx ≠ some (.client t)) →
        ∃ sched s', ByThread sched ∧ sched.length ≤ 2 * (n + 1) ∧ exec s sched = some s' ∧ s'.pc = .finished := by
      intro as s' hb hl hns hs hr ho hm'
      obtain ⟨sched, s2, r1, r2, r3, r4⟩ := ih s' (by omega) (stopped_exec as hns h hs).1 ho hm'
      refine ⟨as ++ sched, s2, ?_, by simp; omega, by rw [exec_append, hs]; exact r3, r4⟩
      intro a ha
      rcases List.mem_append.mp ha with ha | ha
      · exact hb a ha
      · exact r1 a ha
    have th : ∀ s', step s .thread = some s' → s'.pc.rank < s.pc.rank → (∀ t, s'.mtx ≠ some (.client t)) →
        ∃ sched s', ByThread sched ∧ sched.length ≤ 2 * (n + 1) ∧ exec s sched = some s' ∧ s'.pc = .finished := by
      intro s' hs hr hm'
      exact go [.thread] s' (by simp [ByThread]) (by simp) (by simp) (by rw [exec_cons hs]; rfl) hr (own_step hown hs) hm'
    have free : s.pc.owns = false → s.mtx = none := by
      intro hp
      cases hx : s.mtx with
      | none => rfl
      | some o =>
        cases o with
        | thread => have := hown.1.mpr hx; rw [hp] at this; cases this
        | client t => exact absurd hx (hm t)
    have hr := h.run
    have hp := h.pc
    cases hw : s.pc with
    | idle => rw [hw] at hp; cases hp
    | enter => rw [hw] at hp; cases hp
    | startLock => rw [hw] at hp; cases hp
    | startBody => rw [hw] at hp; cases hp
    | startUnlock => rw [hw] at hp; cases hp
    | setRunning => rw [hw] at hp; cases hp
    | finished => exact ⟨[], s, by simp [ByThread], by simp, rfl, hw⟩
    | waiting =>
      refine go [.tick (s.deadline - s.now).toNat, .timeout] ?_ (by simp) (by simp) ?_ ?_ ?_ ?_
        (s' := { s with now := s.now + ((s.deadline - s.now).toNat : Nat), wall := s.wall + ((s.deadline - s.now).toNat : Nat),
                        pc := .relock true })
      · intro a ha
        simp only [List.mem_cons, List.not_mem_nil, or_false] at ha
        rcases ha with rfl | rfl
        · exact .inr (.inr (.inr ⟨_, rfl⟩))
        · exact .inr (.inr (.inl rfl))
      · have : s.deadline ≤ s.now + ((s.deadline - s.now).toNat : Nat) := by omega
        simp only [exec, step, Option.bind_some, hw, true_and, this, if_true, St.goto]
      · rw [hw]; simp [Pc.rank]
      · exact ⟨by have := hown.1; rw [hw] at this; exact this, hown.2⟩
      · exact hm
    | inCall =>
      have hs : step s (.ret 0) = some ({ s.goto .clearForced with code := 0 }.emit (.returned 0 s.now)) := by simp [step, hw]
      exact go [.ret 0] _ (by simp [ByThread]) (by simp) (by simp) (by rw [exec_cons hs]; rfl)
        (by rw [hw]; simp [St.goto, St.emit, Pc.rank]) (own_step hown hs) hm
    | stamp =>
      obtain ⟨s', hs⟩ : ∃ s', step s .thread = some s' := by simp [step, thread, hw]
      have hs' := hs
      simp only [step, thread, hw, Option.some.injEq] at hs'
      subst hs'
      refine th _ hs ?_ ?_
      · rw [hw]; (try split) <;> simp [St.goto, St.emit, Pc.rank]
      · first | exact hm | (simp [St.goto, St.emit]; done) | (split <;> exact hm)
    | loopTest =>
      exact th (s.goto .stopLock) (by simp [step, thread, hw, hr]) (by rw [hw]; simp [St.goto, Pc.rank]) hm
    | lock =>
      have hm := free (by rw [hw]; rfl)
      exact th { s.goto .wait with mtx := some .thread } (by simp [step, thread, hw, hm]) (by rw [hw]; simp [St.goto, Pc.rank])
        (by simp)
    | wait =>
      obtain ⟨s', hs⟩ : ∃ s', step s .thread = some s' := by simp [step, thread, hw]
      have hs' := hs
      simp only [step, thread, hw, Option.some.injEq] at hs'
      subst hs'
      refine th _ hs ?_ ?_
      · rw [hw]; (try split) <;> simp [St.goto, St.emit, Pc.rank]
      · first | exact hm | (simp [St.goto, St.emit]; done) | (split <;> exact hm)
    | relock tmo =>
      have hm := free (by rw [hw]; rfl)
      exact th { s.goto (.testRunning tmo) with mtx := some .thread } (by simp [step, thread, hw, hm])
        (by rw [hw]; simp [St.goto, Pc.rank]) (by simp)
    | testRunning tmo =>
      exact th (s.goto .unlock) (by simp [step, thread, hw, hr]) (by rw [hw]; simp [St.goto, Pc.rank]) hm
    | testForced tmo =>
      obtain ⟨s', hs⟩ : ∃ s', step s .thread = some s' := by simp [step, thread, hw]
      have hs' := hs
      simp only [step, thread, hw, Option.some.injEq] at hs'
      subst hs'
      refine th _ hs ?_ ?_
      · rw [hw]; (try split) <;> simp [St.goto, St.emit, Pc.rank]
      · first | exact hm | (simp [St.goto, St.emit]; done) | (split <;> exact hm)
    | call =>
      obtain ⟨s', hs⟩ : ∃ s', step s .thread = some s' := by simp [step, thread, hw]
      have hs' := hs
      simp only [step, thread, hw, Option.some.injEq] at hs'
      subst hs'
      refine th _ hs ?_ ?_
      · rw [hw]; (try split) <;> simp [St.goto, St.emit, Pc.rank]
      · first | exact hm | (simp [St.goto, St.emit]; done) | (split <;> exact hm)
    | clearForced =>
      obtain ⟨s', hs⟩ : ∃ s', step s .thread = some s' := by simp [step, thread, hw]
      have hs' := hs
      simp only [step, thread, hw, Option.some.injEq] at hs'
      subst hs'
      refine th _ hs ?_ ?_
      · rw [hw]; (try split) <;> simp [St.goto, St.emit, Pc.rank]
      · first | exact hm | (simp [St.goto, St.emit]; done) | (split <;> exact hm)
    | loadRunning =>
      obtain ⟨s', hs⟩ : ∃ s', step s .thread = some s' := by simp [step, thread, hw]
      have hs' := hs
      simp only [step, thread, hw, Option.some.injEq] at hs'
      subst hs'
      refine th _ hs ?_ ?_
      · rw [hw]; (try split) <;> simp [St.goto, St.emit, Pc.rank]
      · first | exact hm | (simp [St.goto, St.emit]; done) | (split <;> exact hm)
    | storeRunning b =>
      obtain ⟨s', hs⟩ : ∃ s', step s .thread = some s' := by simp [step, thread, hw]
      have hs' := hs
      simp only [step, thread, hw, Option.some.injEq] at hs'
      subst hs'
      refine th _ hs ?_ ?_
      · rw [hw]; (try split) <;> simp [St.goto, St.emit, Pc.rank]
      · first | exact hm | (simp [St.goto, St.emit]; done) | (split <;> exact hm)
    | setRem =>
      obtain ⟨s', hs⟩ : ∃ s', step s .thread = some s' := by simp [step, thread, hw]
      have hs' := hs
      simp only [step, thread, hw, Option.some.injEq] at hs'
      subst hs'
      refine th _ hs ?_ ?_
      · rw [hw]; (try split) <;> simp [St.goto, St.emit, Pc.rank]
      · first | exact hm | (simp [St.goto, St.emit]; done) | (split <;> exact hm)
    | adjRem =>
      obtain ⟨s', hs⟩ : ∃ s', step s .thread = some s' := by simp [step, thread, hw]
      have hs' := hs
      simp only [step, thread, hw, Option.some.injEq] at hs'
      subst hs'
      refine th _ hs ?_ ?_
      · rw [hw]; (try split) <;> simp [St.goto, St.emit, Pc.rank]
      · first | exact hm | (simp [St.goto, St.emit]; done) | (split <;> exact hm)
    | reset =>
      obtain ⟨s', hs⟩ : ∃ s', step s .thread = some s' := by simp [step, thread, hw]
      have hs' := hs
      simp only [step, thread, hw, Option.some.injEq] at hs'
      subst hs'
      refine th _ hs ?_ ?_
      · rw [hw]; (try split) <;> simp [St.goto, St.emit, Pc.rank]
      · first | exact hm | (simp [St.goto, St.emit]; done) | (split <;> exact hm)
    | unlock =>
      obtain ⟨s', hs⟩ : ∃ s', step s .thread = some s' := by simp [step, thread, hw]
      have hs' := hs
      simp only [step, thread, hw, Option.some.injEq] at hs'
      subst hs'
      refine th _ hs ?_ ?_
      · rw [hw]; (try split) <;> simp [St.goto, St.emit, Pc.rank]
      · first | exact hm | (simp [St.goto, St.emit]; done) | (split <;> exact hm)
    | stopLock =>
      have hm := free (by rw [hw]; rfl)
      exact th { s.goto .stopBody with mtx := some .thread } (by simp [step, thread, hw, hm])
        (by rw [hw]; simp [St.goto, Pc.rank]) (by simp)
    | stopBody =>
      obtain ⟨s', hs⟩ : ∃ s', step s .thread = some s' := by simp [step, thread, hw]
      have hs' := hs
      simp only [step, thread, hw, Option.some.injEq] at hs'
      subst hs'
      refine th _ hs ?_ ?_
      · rw [hw]; (try split) <;> simp [St.goto, St.emit, Pc.rank]
      · first | exact hm | (simp [St.goto, St.emit]; done) | (split <;> exact hm)
    | stopUnlock =>
      obtain ⟨s', hs⟩ : ∃ s', step s .thread = some s' := by simp [step, thread, hw]
      have hs' := hs
      simp only [step, thread, hw, Option.some.injEq] at hs'
      subst hs'
      refine th _ hs ?_ ?_
      · rw [hw]; (try split) <;> simp [St.goto, St.emit, Pc.rank]
      · first | exact hm | (simp [St.goto, St.emit]; done) | (split <;> exact hm)
    | finish =>
      obtain ⟨s', hs⟩ : ∃ s', step s .thread = some s' := by simp [step, thread, hw]
      have hs' := hs
      simp only [step, thread, hw, Option.some.injEq] at hs'
      subst hs'
      refine th _ hs ?_ ?_
      · rw [hw]; (try split) <;> simp [St.goto, St.emit, Pc.rank]
      · first | exact hm | (simp [St.goto, St.emit]; done) | (split <;> exact hm)

/-- C101, the part that holds: a `stop` whose store hits neither window is never undone. Whatever happens afterwards short
of a new `start`, the flag stays cleared and `on_interval` is called at most once more; and whenever the mutex is not
held by a client, the thread can run to its end by itself, within 38 steps, so `join` returns.
Missing: the two windows, see the counterexamples. -/
theorem C101_stops_partial (ms : Nat) (s : St) (h : Reach ms s) (t : Nat) (hc : s.cpc t = .stopStore)
    (hp : s.pc.listening = true) : ∃ s1, step s (.client t) = some s1 ∧
    ∀ sched s2, .start ∉ sched → exec s1 sched = some s2 →
      s2.isRunning = false ∧ intervals s2.log ≤ intervals s.log + 1 ∧
      ((∀ u, s2.mtx ≠ some (.client u)) → ∃ sched' s3, ByThread sched' ∧ sched'.length ≤ 38 ∧ exec s2 sched' = some s3 ∧
        s3.pc = .finished) := by
  have hs : step s (.client t) = some ({ s.c t .stopCallback with isRunning := false }.emit (.stopStored t)) := by
    simp [step, client, hc]
  refine ⟨_, hs, fun sched s2 hns he => ?_⟩
  have hown := own_step (own_inv h) hs
  have hst : Stopped ({ s.c t .stopCallback with isRunning := false }.emit (.stopStored t)) := ⟨rfl, hp⟩
  obtain ⟨h1, h2⟩ := stopped_exec sched hns hst he
  refine ⟨h1.run, ?_, fun hm => ?_⟩
  · have : s.pc.committed ≤ 1 := by cases s.pc <;> simp [Pc.committed]
    have e1 : intervals ({ s.c t .stopCallback with isRunning := false }.emit (.stopStored t)).log = intervals s.log := rfl
    have e2 : ({ s.c t .stopCallback with isRunning := false }.emit (.stopStored t)).pc = s.pc := rfl
    rw [e1, e2] at h2
    omega
  · have ho : Own s2 := exec_ind (A := fun _ => True) (P := Own) (fun _ _ _ _ => own_step) sched _ _ (by simp) hown he
    have hr : s2.pc.rank ≤ 19 := by cases s2.pc <;> simp [Pc.rank]
    exact finish_from 19 s2 hr h1 ho hm

/-- The ordinary case: `stop` reaches the thread asleep. -/
example : (exec (init 100) ([.start] ++ List.replicate 9 .thread ++ [.call 7 .stop, .client 7, .client 7, .client 7, .wake] ++
    List.replicate 8 .thread)).map (fun s => (s.pc, intervals s.log)) = some (.finished, 0) := by decide +kernel

/-! ### C102 -/

/-- The moment the current interval began: the start of the clock, or the end of the last call. -/
def since : List Event → Option Int
  | [] => none
  | .begun t :: _ => some t
  | .returned _ t :: _ => some t
  | _ :: l => since l

/-- No call of `on_interval` came less than `d` after that moment. -/
def NeverEarly (d : Int) : List Event → Prop
  | [] => True
  | .interval t :: l => (∃ b, since l = some b ∧ b + d ≤ t) ∧ NeverEarly d l
  | _ :: l => NeverEarly d l

/-- No `notify`, no `set_interval`, and the wall clock is not set forward. -/
def Act.calm : Act → Bool
  | .call _ .notify => false
  | .call _ (.setInterval _) => false
  | .adjust d => decide (d ≤ 0)
  | _ => true

def CPc.calm : CPc → Bool
  | .forcedStore | .intervalStore _ => false
  | _ => true

/-- What holds at each place of the loop; `b` is the beginning of the interval, `d` its length. -/
def Timely (d : Int) (s : St) : Prop :=
  match s.pc with
  | .idle | .enter | .startLock | .startBody | .startUnlock | .setRunning | .stopLock | .stopBody | .stopUnlock
  | .finish | .finished | .inCall | .stamp => True
  | .loopTest | .unlock =>
    s.isRunning = true → ∃ b, since s.log = some b ∧ b ≤ s.stampAt ∧ b + d ≤ s.stampAt + s.rem * K
  | .lock | .wait =>
    ∃ b, since s.log = some b ∧ b ≤ s.stampAt ∧ b + d ≤ s.stampAt + s.rem * K
  | .waiting => ∃ b, since s.log = some b ∧ b ≤ s.stampAt ∧ b + d ≤ s.stampAt + s.rem * K ∧ b + d ≤ s.deadline
  | .relock tmo | .testRunning tmo | .testForced tmo =>
    ∃ b, since s.log = some b ∧ b ≤ s.stampAt ∧ b + d ≤ s.stampAt + s.rem * K ∧ (tmo = true → b + d ≤ s.now)
  | .call => ∃ b, since s.log = some b ∧ b + d ≤ s.now
  | .clearForced | .loadRunning | .storeRunning _ | .setRem => ∃ b, since s.log = some b ∧ b ≤ s.now
  | .adjRem => ∃ b, since s.log = some b ∧ b ≤ s.stampAt ∧ b + d ≤ s.stampAt + s.rem * K
  | .reset => ∃ b, since s.log = some b ∧ b ≤ s.now ∧ b + d ≤ s.now + s.rem * K

structure TInv (ms : Nat) (s : St) : Prop where
  int    : s.interval = ms
  forced : s.forced = false
  calm   : ∀ t, (s.cpc t).calm = true
  past   : s.stampAt ≤ s.now
  wall   : s.wall - s.stamp ≤ s.now - s.stampAt
  start  : s.pc = .startLock ∨ s.pc = .startBody ∨ s.pc = .startUnlock ∨ s.pc = .setRunning ∨ s.pc = .stamp → s.rem = ms
  log    : NeverEarly (ms * K) s.log
  timely : Timely (ms * K) s

theorem since_cons {e : Event} {l : List Event} (h1 : ∀ t, e ≠ .begun t) (h2 : ∀ v t, e ≠ .returned v t) :
    since (e :: l) = since l := by
  cases e <;> first | rfl | exact absurd rfl (h1 _) | exact absurd rfl (h2 _ _)

theorem neverEarly_cons {d : Int} {e : Event} {l : List Event} (h : ∀ t, e ≠ .interval t) :
    NeverEarly d (e :: l) = NeverEarly d l := by
  cases e <;> first | rfl | exact absurd rfl (h _)

/-- The time subtracted is never more than the time that passed. -/
theorem tdiv_le {a b : Int} (h : a ≤ b) (hb : 0 ≤ b) : a.tdiv K * K ≤ b := by
  unfold K
  rcases Int.le_total 0 a with ha | ha
  · rw [Int.tdiv_eq_ediv_of_nonneg ha]
    omega
  · have : a.tdiv 1000000 ≤ 0 := by
      rw [← Int.neg_neg a, Int.neg_tdiv, Int.tdiv_eq_ediv_of_nonneg (by omega)]
      omega
    omega

theorem tinv_thread {ms : Nat} {s s' : St} (h : TInv ms s) (hs : thread s = some s') : TInv ms s' := by
  obtain ⟨hint, hforced, hcalm, hpast, hwall, hstart, hlog, ht⟩ := h
  unfold thread at hs
  unfold Timely at ht
  cases hw : s.pc <;> rw [hw] at hs hstart ht <;> simp only [reduceCtorEq, or_self, or_true, true_or, or_false, false_or, false_implies, true_implies] at hs hstart ht
  case enter =>
    injection hs with hs; subst hs
    exact ⟨hint, hforced, hcalm, hpast, hwall, fun _ => hint, hlog, trivial⟩
  case startLock =>
    split at hs
    · injection hs with hs; subst hs
      exact ⟨hint, hforced, hcalm, hpast, hwall, fun _ => hstart, hlog, trivial⟩
    · cases hs
  case startBody =>
    injection hs with hs
    split at hs <;> subst hs <;> exact ⟨hint, hforced, hcalm, hpast, hwall, fun _ => hstart, hlog, trivial⟩
  case startUnlock =>
    injection hs with hs; subst hs
    exact ⟨hint, hforced, hcalm, hpast, hwall, fun _ => hstart, hlog, trivial⟩
  case setRunning =>
    injection hs with hs; subst hs
    exact ⟨hint, hforced, hcalm, hpast, hwall, fun _ => hstart, hlog, trivial⟩
  case stamp =>
    injection hs with hs; subst hs
    refine ⟨hint, hforced, hcalm, Int.le_refl _, by simp [St.goto, St.emit], by simp [St.goto, St.emit], hlog, ?_⟩
    intro _
    refine ⟨s.now, rfl, Int.le_refl _, ?_⟩
    simp only [St.goto, St.emit, hstart]
    exact Int.le_refl _
  case loopTest =>
    injection hs with hs; subst hs
    refine ⟨hint, hforced, hcalm, hpast, hwall, ?_, hlog, ?_⟩
    · split <;> simp [St.goto]
    · cases hr : s.isRunning with
      | true => exact ht hr
      | false => trivial
  case lock =>
    split at hs
    · injection hs with hs; subst hs
      exact ⟨hint, hforced, hcalm, hpast, hwall, by simp [St.goto], hlog, ht⟩
    · cases hs
  case wait =>
    injection hs with hs; subst hs
    obtain ⟨b, h1, h2, h3⟩ := ht
    refine ⟨hint, hforced, hcalm, hpast, hwall, by simp [St.goto], hlog, b, h1, h2, h3, ?_⟩
    simp only [St.goto]
    omega
  case relock tmo =>
    split at hs
    · injection hs with hs; subst hs
      exact ⟨hint, hforced, hcalm, hpast, hwall, by simp [St.goto], hlog, ht⟩
    · cases hs
  case testRunning tmo =>
    injection hs with hs; subst hs
    refine ⟨hint, hforced, hcalm, hpast, hwall, by split <;> simp [St.goto], hlog, ?_⟩
    cases hr : s.isRunning with
    | true => exact ht
    | false => intro hh; rw [show s.isRunning = true from hh] at hr; cases hr
  case testForced tmo =>
    injection hs with hs; subst hs
    refine ⟨hint, hforced, hcalm, hpast, hwall, by split <;> simp [St.goto], hlog, ?_⟩
    obtain ⟨b, h1, h2, h3, h4⟩ := ht
    rw [hforced, Bool.or_false]
    cases tmo with
    | true => exact ⟨b, h1, h4 rfl⟩
    | false => exact ⟨b, h1, h2, h3⟩
  case call =>
    injection hs with hs; subst hs
    exact ⟨hint, hforced, hcalm, hpast, hwall, by simp [St.goto, St.emit], ⟨ht, hlog⟩, trivial⟩
  case clearForced =>
    injection hs with hs; subst hs
    exact ⟨hint, rfl, hcalm, hpast, hwall, by simp [St.goto], hlog, ht⟩
  case loadRunning =>
    injection hs with hs; subst hs
    exact ⟨hint, hforced, hcalm, hpast, hwall, by simp [St.goto], hlog, ht⟩
  case storeRunning b =>
    injection hs with hs; subst hs
    exact ⟨hint, hforced, hcalm, hpast, hwall, by simp [St.goto], hlog, ht⟩
  case setRem =>
    injection hs with hs; subst hs
    obtain ⟨b, h1, h2⟩ := ht
    refine ⟨hint, hforced, hcalm, hpast, hwall, by simp [St.goto], hlog, b, h1, h2, ?_⟩
    simp only [St.goto, hint]
    omega
  case adjRem =>
    injection hs with hs; subst hs
    obtain ⟨b, h1, h2, h3⟩ := ht
    refine ⟨hint, hforced, hcalm, hpast, hwall, by simp [St.goto], hlog, b, h1, by simp only [St.goto]; omega, ?_⟩
    simp only [St.goto, hint]
    have hd := tdiv_le (a := s.wall - s.stamp) (b := s.now - s.stampAt) hwall (by omega)
    rcases Int.le_total (ms : Int) (s.rem - (s.wall - s.stamp).tdiv K) with hm | hm
    · rw [Int.min_eq_left hm]; omega
    · rw [Int.min_eq_right hm, Int.sub_mul]; omega
  case reset =>
    injection hs with hs; subst hs
    obtain ⟨b, h1, h2, h3⟩ := ht
    exact ⟨hint, hforced, hcalm, Int.le_refl _, by simp [St.goto], by simp [St.goto], hlog, fun _ => ⟨b, h1, h2, h3⟩⟩
  case unlock =>
    injection hs with hs; subst hs
    exact ⟨hint, hforced, hcalm, hpast, hwall, by simp [St.goto], hlog, ht⟩
  case stopLock =>
    split at hs
    · injection hs with hs; subst hs
      exact ⟨hint, hforced, hcalm, hpast, hwall, by simp [St.goto], hlog, trivial⟩
    · cases hs
  case stopBody =>
    injection hs with hs
    split at hs <;> subst hs <;> exact ⟨hint, hforced, hcalm, hpast, hwall, by simp [St.goto, St.emit], hlog, trivial⟩
  case stopUnlock =>
    injection hs with hs; subst hs
    exact ⟨hint, hforced, hcalm, hpast, hwall, by simp [St.goto], hlog, trivial⟩
  case finish =>
    injection hs with hs; subst hs
    exact ⟨hint, hforced, hcalm, hpast, hwall, by simp [St.goto, St.emit], hlog, trivial⟩

/-- Steps that leave the thread alone: time does not go back, the flag is at most cleared. -/
theorem timely_keep {d : Int} {s s' : St} (h : Timely d s) (hpc : s'.pc = s.pc) (hsin : since s'.log = since s.log)
    (hst : s'.stampAt = s.stampAt) (hrem : s'.rem = s.rem) (hdl : s'.deadline = s.deadline) (hn : s.now ≤ s'.now)
    (hr : s'.isRunning = true → s.isRunning = true) : Timely d s' := by
  unfold Timely at h ⊢
  rw [hpc]
  cases hw : s.pc <;> rw [hw] at h <;> simp only [hsin, hst, hrem, hdl] at h ⊢
  all_goals (first
    | exact h
    | exact fun hh => h (hr hh)
    | (obtain ⟨b, h1, h2, h3, h4⟩ := h; exact ⟨b, h1, h2, h3, fun e => Int.le_trans (h4 e) hn⟩)
    | (obtain ⟨b, h1, h2, h3⟩ := h; exact ⟨b, h1, by omega, by omega⟩)
    | (obtain ⟨b, h1, h2⟩ := h; exact ⟨b, h1, by omega⟩))

theorem tinv_client {ms : Nat} {s s' : St} (h : TInv ms s) (t : Nat) (hs : client s t = some s') : TInv ms s' := by
  obtain ⟨hint, hforced, hcalm, hpast, hwall, hstart, hlog, ht⟩ := h
  have hct := hcalm t
  unfold client at hs
  have hcal : ∀ p : CPc, p.calm = true → ∀ u, (if u = t then p else s.cpc u).calm = true := by
    intro p hp u
    split
    · exact hp
    · exact hcalm u
  cases hw : s.cpc t <;> rw [hw] at hs hct <;> simp only [CPc.calm, reduceCtorEq, Bool.false_eq_true] at hs hct
  all_goals (try split at hs)
  all_goals (first | cases hs; done | (injection hs with hs; subst hs))
  all_goals
    refine ⟨hint, hforced, fun u => hcal _ rfl u, hpast, hwall, hstart, hlog, ?_⟩
    exact timely_keep ht rfl rfl rfl rfl rfl (Int.le_refl _) (by first | exact id | (intro hh; cases hh))

theorem tinv_step {ms : Nat} {s s' : St} {a : Act} (ha : a.calm = true) (h : TInv ms s) (hs : step s a = some s') :
    TInv ms s' := by
  cases a with
  | thread => exact tinv_thread h hs
  | client t => exact tinv_client h t hs
  | start =>
    obtain ⟨hint, hforced, hcalm, hpast, hwall, hstart, hlog, ht⟩ := h
    simp only [step] at hs
    split at hs
    · injection hs with hs; subst hs
      exact ⟨hint, hforced, hcalm, hpast, hwall, by simp [St.goto], hlog, trivial⟩
    · cases hs
  | ret v =>
    obtain ⟨hint, hforced, hcalm, hpast, hwall, hstart, hlog, ht⟩ := h
    simp only [step] at hs
    split at hs
    · injection hs with hs; subst hs
      exact ⟨hint, hforced, hcalm, hpast, hwall, by simp [St.goto, St.emit], hlog, s.now, rfl, Int.le_refl _⟩
    · cases hs
  | timeout =>
    obtain ⟨hint, hforced, hcalm, hpast, hwall, hstart, hlog, ht⟩ := h
    simp only [step] at hs
    split at hs
    · rename_i hw
      injection hs with hs; subst hs
      unfold Timely at ht
      rw [hw.1] at ht
      obtain ⟨b, h1, h2, h3, h4⟩ := ht
      exact ⟨hint, hforced, hcalm, hpast, hwall, by simp [St.goto], hlog, b, h1, h2, h3, fun _ => Int.le_trans h4 hw.2⟩
    · cases hs
  | wake =>
    obtain ⟨hint, hforced, hcalm, hpast, hwall, hstart, hlog, ht⟩ := h
    simp only [step] at hs
    split at hs
    · rename_i hw
      injection hs with hs; subst hs
      unfold Timely at ht
      rw [hw] at ht
      obtain ⟨b, h1, h2, h3, h4⟩ := ht
      exact ⟨hint, hforced, hcalm, hpast, hwall, by simp [St.goto], hlog, b, h1, h2, h3, fun hh => by cases hh⟩
    · cases hs
  | tick d =>
    obtain ⟨hint, hforced, hcalm, hpast, hwall, hstart, hlog, ht⟩ := h
    injection hs with hs; subst hs
    exact ⟨hint, hforced, hcalm, by simp only; omega, by simp only; omega, hstart, hlog,
      timely_keep ht rfl rfl rfl rfl rfl (by simp only; omega) id⟩
  | adjust d =>
    obtain ⟨hint, hforced, hcalm, hpast, hwall, hstart, hlog, ht⟩ := h
    have hd : d ≤ 0 := by simpa [Act.calm] using ha
    injection hs with hs; subst hs
    exact ⟨hint, hforced, hcalm, hpast, by simp only; omega, hstart, hlog,
      timely_keep ht rfl rfl rfl rfl rfl (Int.le_refl _) id⟩
  | call t op =>
    obtain ⟨hint, hforced, hcalm, hpast, hwall, hstart, hlog, ht⟩ := h
    simp only [step] at hs
    split at hs
    · injection hs with hs; subst hs
      refine ⟨hint, hforced, fun u => ?_, hpast, hwall, hstart, hlog,
        timely_keep ht rfl rfl rfl rfl rfl (Int.le_refl _) id⟩
      simp only [St.c]
      split
      · cases op <;> simp [Act.calm] at ha <;> rfl
      · exact hcalm u
    · cases hs

/-- C102: without `notify` and `set_interval`, and with a wall clock that is never set forward, no call of `on_interval`
comes earlier than the interval after the end of the previous call, or after the start; whatever spurious wake-ups and
delays there are, and however `duration_cast` rounds. -/
theorem C102_never_early (ms : Nat) (sched : List Act) (hc : ∀ a ∈ sched, a.calm = true) (s : St)
    (hs : exec (init ms) sched = some s) : NeverEarly (ms * K) s.log := by
  refine (exec_ind (A := fun a => a.calm = true) (P := TInv ms) (fun s a s' => tinv_step) sched _ _ hc ?_ hs).log
  refine ⟨rfl, rfl, fun _ => rfl, Int.le_refl _, Int.le_refl _, by simp [init], trivial, trivial⟩

/-- Two spurious wake-ups, at 0.9999 ms and 99.5 ms: rounding makes the timer late, not early. -/
example : (exec (init 100) ([.start] ++ List.replicate 9 .thread ++ [.tick 999900, .wake] ++ List.replicate 9 .thread ++
    [.tick 98500100, .wake] ++ List.replicate 9 .thread ++ [.tick 2000000, .timeout] ++ List.replicate 4 .thread)).map
    (fun s => s.log) = some [.interval 101500000, .begun 0, .onStart, .entered] := by decide +kernel

/-- C102: the proviso about the clock is needed. When the system clock is set forward while the timer sleeps, a spurious
wake-up makes it fire at once. -/
theorem C102_forward : ∃ s : St, Reach 100 s ∧ s.log = [.interval 1000000, .begun 0, .onStart, .entered] := by
  have hk : (exec (init 100) ([.start] ++ List.replicate 9 .thread ++ [.tick 1000000, .adjust 3600000000000, .wake] ++
      List.replicate 9 .thread ++ [.timeout] ++ List.replicate 4 .thread)).map (fun s => s.log) =
      some [.interval 1000000, .begun 0, .onStart, .entered] := by decide +kernel
  cases hs : exec (init 100) ([.start] ++ List.replicate 9 .thread ++ [.tick 1000000, .adjust 3600000000000, .wake] ++
      List.replicate 9 .thread ++ [.timeout] ++ List.replicate 4 .thread) with
  | none => rw [hs] at hk; cases hk
  | some s => rw [hs] at hk; exact ⟨s, ⟨_, hs⟩, by simpa using hk⟩

/-! ### C103 -/

/-- The value the current run has to return: that of the last call of `on_interval`, at first EXIT_SUCCESS. -/
def lastCode : List Event → Int
  | [] => 0
  | .entered :: _ => 0
  | .returned v _ :: _ => v
  | _ :: l => lastCode l

/-- `on_interval` is called only while all calls so far succeeded, and `run` returns the value of the last one. -/
def FailStops : List Event → Prop
  | [] => True
  | .interval _ :: l => lastCode l = 0 ∧ FailStops l
  | .exited v :: l => v = lastCode l ∧ FailStops l
  | _ :: l => FailStops l

structure FInv (s : St) : Prop where
  log  : FailStops s.log
  code : s.code = lastCode s.log
  fail : s.code ≠ 0 → match s.pc with
    | .idle | .enter | .clearForced | .loadRunning | .storeRunning false | .stopLock | .stopBody | .stopUnlock | .finish
    | .finished => True
    | .setRem | .reset | .unlock | .loopTest => s.isRunning = false
    | _ => False

theorem finv_step {s s' : St} {a : Act} (h : FInv s) (hs : step s a = some s') : FInv s' := by
  obtain ⟨hl, hc, hf⟩ := h
  cases a with
  | thread =>
    simp only [step, thread] at hs
    cases hw : s.pc <;> rw [hw] at hs hf <;> simp only [reduceCtorEq] at hs hf
    case enter => injection hs with hs; subst hs; exact ⟨hl, rfl, fun hh => absurd rfl hh⟩
    case loadRunning =>
      injection hs with hs; subst hs
      refine ⟨hl, hc, fun hh => ?_⟩
      have : (s.code == 0) = false := by simpa [St.goto] using hh
      simp [St.goto, this]
    case storeRunning b =>
      injection hs with hs; subst hs
      refine ⟨hl, hc, fun hh => ?_⟩
      have := hf hh
      cases b
      · rfl
      · simp at this
    case loopTest =>
      injection hs with hs; subst hs
      refine ⟨hl, hc, fun hh => ?_⟩
      have := hf hh
      simp [St.goto, this]
    case finish => injection hs with hs; subst hs; exact ⟨⟨hc, hl⟩, hc, fun _ => trivial⟩
    case call =>
      injection hs with hs; subst hs
      have h0 : s.code = 0 := by
        by_contra hh
        exact hf hh
      exact ⟨⟨hc.symm.trans h0, hl⟩, hc, fun hh => absurd h0 hh⟩
    all_goals (try split at hs)
    all_goals (first | cases hs; done | (injection hs with hs))
    all_goals (try split at hs)
    all_goals (subst hs)
    all_goals (first
      | exact ⟨hl, hc, hf⟩
      | exact ⟨hl, hc, fun hh => absurd (hf hh) (by simp)⟩)
  | ret v =>
    simp only [step] at hs
    split at hs
    · injection hs with hs; subst hs; exact ⟨hl, rfl, fun _ => trivial⟩
    · cases hs
  | start =>
    simp only [step] at hs
    split at hs
    · injection hs with hs; subst hs; exact ⟨hl, hc, fun _ => trivial⟩
    · cases hs
  | timeout =>
    simp only [step] at hs
    split at hs
    · rename_i hw; injection hs with hs; subst hs; rw [hw.1] at hf; exact ⟨hl, hc, hf⟩
    · cases hs
  | wake =>
    simp only [step] at hs
    split at hs
    · rename_i hw; injection hs with hs; subst hs; rw [hw] at hf; exact ⟨hl, hc, hf⟩
    · cases hs
  | tick d => injection hs with hs; subst hs; exact ⟨hl, hc, hf⟩
  | adjust d => injection hs with hs; subst hs; exact ⟨hl, hc, hf⟩
  | call t op =>
    simp only [step] at hs
    split at hs
    · injection hs with hs; subst hs; exact ⟨hl, hc, hf⟩
    · cases hs
  | client t =>
    simp only [step, client] at hs
    cases hw : s.cpc t <;> rw [hw] at hs <;> simp only [reduceCtorEq] at hs
    case stopStore =>
      injection hs with hs; subst hs
      refine ⟨hl, hc, fun hh => ?_⟩
      have h2 := hf hh
      have e : ({ s.c t .stopCallback with isRunning := false }.emit (.stopStored t)).pc = s.pc := rfl
      rw [e]
      cases hp : s.pc <;> rw [hp] at h2 <;> first | exact h2 | rfl | (rename_i b; cases b <;> exact h2)
    all_goals (try split at hs)
    all_goals (first | cases hs; done | (injection hs with hs; subst hs))
    all_goals exact ⟨hl, hc, hf⟩

/-- C103: after a call of `on_interval` that did not return EXIT_SUCCESS there is no further call in that run, and `run`
returns the value of the last call. -/
theorem C103_failure (ms : Nat) (s : St) (h : Reach ms s) : FailStops s.log :=
  (reach_ind (P := FInv) ⟨trivial, rfl, fun hh => absurd rfl hh⟩ (fun _ _ _ => finv_step) h).log

/-- C103: and the run ends: from the moment the failure is returned, the thread reaches its end by itself. -/
theorem C103_ends (ms : Nat) (s s1 : St) (h : Reach ms s) (v : Int) (hv : v ≠ 0) (hs : step s (.ret v) = some s1) :
    ∃ s', exec s1 (List.replicate 11 .thread) = some s' ∧ s'.pc = .finished ∧ s'.log.head? = some (.exited v) := by
  have hown := own_step (own_inv h) hs
  simp only [step] at hs
  split at hs
  · injection hs with hs
    subst hs
    have hm := hown.1.mp rfl
    obtain ⟨isRunning, forced, deleted, interval, mtx, rem, code, stamp, deadline, now, wall, pc, cpc, log, stampAt⟩ := s
    simp only [St.goto, St.emit] at hm
    subst hm
    have hv' : (v == 0) = false := by simpa using hv
    cases deleted <;>
      simp [List.replicate, exec, step, thread, St.goto, St.emit, hv']
  · cases hs

example : (exec (init 100) ([.start] ++ List.replicate 9 .thread ++ [.tick 100000000, .timeout] ++ List.replicate 4 .thread ++
    [.ret 3] ++ List.replicate 11 .thread)).map (fun s => s.log) =
    some [.exited 3, .onStop, .returned 3 100000000, .interval 100000000, .begun 0, .onStart, .entered] := by decide +kernel

/-- C103: `timer_t` returns EXIT_SUCCESS exactly when its callback returned true. -/
theorem C103_callback (b : Bool) : timerOnInterval b = (if b then 0 else 1) ∧ (timerOnInterval b = 0 ↔ b = true) := by
  cases b <;> simp [timerOnInterval]

/-! ### C104 -/

/-- Where a run is, according to the log. -/
inductive Phase
  | out        -- no run
  | pre        -- entered, `on_start` not called
  | on         -- `on_start` called
  | off        -- `on_stop` called
deriving DecidableEq, Repr

def isMark : Event → Bool
  | .marked _ => true
  | _ => false

/-- The destructor has set `_deleted`. -/
def Marked (l : List Event) : Prop := l.any isMark = true

/-- The order required: `on_start` once after the entry, then the clock and the calls of `on_interval`, then `on_stop` once,
then the end. `on_start` and `on_stop` may be missing only when the object is being destroyed. `none`: violated. -/
def life : List Event → Option Phase
  | [] => some .out
  | .entered :: l => if life l = some .out then some .pre else none
  | .onStart :: l => if life l = some .pre then some .on else none
  | .begun _ :: l | .interval _ :: l | .returned _ _ :: l =>
    match life l with
    | some .on => some .on
    | some .pre => if l.any isMark then some .pre else none
    | _ => none
  | .onStop :: l =>
    match life l with
    | some .on => some .off
    | some .pre => if l.any isMark then some .off else none
    | _ => none
  | .exited _ :: l =>
    match life l with
    | some .off => some .out
    | some .on | some .pre => if l.any isMark then some .out else none
    | _ => none
  | .stopStored _ :: l | .stopOnStop _ :: l | .marked _ :: l | .notified _ :: l => life l

structure LInv (s : St) : Prop where
  mark : s.deleted = true → s.log.any isMark = true
  life : match s.pc with
    | .idle | .enter | .finished => life s.log = some .out
    | .startLock | .startBody => life s.log = some .pre
    | .stopUnlock | .finish =>
      life s.log = some .off ∨ ((life s.log = some .on ∨ life s.log = some .pre) ∧ s.log.any isMark = true)
    | _ => life s.log = some .on ∨ (life s.log = some .pre ∧ s.log.any isMark = true)

theorem linv_step {s s' : St} {a : Act} (h : LInv s) (hs : step s a = some s') : LInv s' := by
  obtain ⟨hm, hl⟩ := h
  cases a with
  | thread =>
    simp only [step, thread] at hs
    cases hw : s.pc <;> rw [hw] at hs hl <;> simp only [reduceCtorEq] at hs hl
    case enter =>
      injection hs with hs; subst hs
      exact ⟨fun hh => by simpa [St.emit, St.goto, isMark] using hm hh, by simp [St.emit, St.goto, life, hl]⟩
    case startBody =>
      injection hs with hs
      split at hs <;> subst hs
      · rename_i hd
        exact ⟨hm, .inr ⟨hl, hm hd⟩⟩
      · exact ⟨fun hh => by simpa [St.emit, St.goto, isMark] using hm hh, .inl (by simp [St.emit, St.goto, life, hl])⟩
    case stamp =>
      injection hs with hs; subst hs
      refine ⟨fun hh => by simpa [St.emit, St.goto, isMark] using hm hh, ?_⟩
      rcases hl with hl | ⟨hl, hk⟩
      · exact .inl (by simp [St.emit, St.goto, life, hl])
      · exact .inr ⟨by simp [St.emit, St.goto, life, hl, hk], by simpa [St.emit, St.goto, isMark] using hk⟩
    case call =>
      injection hs with hs; subst hs
      refine ⟨fun hh => by simpa [St.emit, St.goto, isMark] using hm hh, ?_⟩
      rcases hl with hl | ⟨hl, hk⟩
      · exact .inl (by simp [St.emit, St.goto, life, hl])
      · exact .inr ⟨by simp [St.emit, St.goto, life, hl, hk], by simpa [St.emit, St.goto, isMark] using hk⟩
    case stopBody =>
      injection hs with hs
      split at hs <;> subst hs
      · rename_i hd
        refine ⟨hm, .inr ⟨?_, hm hd⟩⟩
        rcases hl with hl | ⟨hl, _⟩
        · exact .inl hl
        · exact .inr hl
      · refine ⟨fun hh => by simpa [St.emit, St.goto, isMark] using hm hh, ?_⟩
        rcases hl with hl | ⟨hl, hk⟩
        · exact .inl (by simp [St.emit, St.goto, life, hl])
        · exact .inl (by simp [St.emit, St.goto, life, hl, hk])
    case finish =>
      injection hs with hs; subst hs
      refine ⟨fun hh => by simpa [St.emit, St.goto, isMark] using hm hh, ?_⟩
      rcases hl with hl | ⟨hl | hl, hk⟩ <;> simp_all [St.emit, St.goto, life]
    all_goals (try split at hs)
    all_goals (first | cases hs; done | (injection hs with hs))
    all_goals (try split at hs)
    all_goals (subst hs)
    all_goals (first | exact ⟨hm, hl⟩ | (refine ⟨hm, ?_⟩; simp only [St.goto]; split <;> simp_all))
  | ret v =>
    simp only [step] at hs
    split at hs
    · rename_i hw
      injection hs with hs; subst hs
      rw [hw] at hl
      refine ⟨fun hh => by simpa [St.emit, St.goto, isMark] using hm hh, ?_⟩
      rcases hl with hl | ⟨hl, hk⟩
      · exact .inl (by simp [St.emit, St.goto, life, hl])
      · exact .inr ⟨by simp [St.emit, St.goto, life, hl, hk], by simpa [St.emit, St.goto, isMark] using hk⟩
    · cases hs
  | start =>
    simp only [step] at hs
    split at hs
    · rename_i hw
      injection hs with hs; subst hs
      refine ⟨hm, ?_⟩
      rcases hw with hw | hw <;> rw [hw] at hl <;> exact hl
    · cases hs
  | timeout =>
    simp only [step] at hs
    split at hs
    · rename_i hw; injection hs with hs; subst hs; rw [hw.1] at hl; exact ⟨hm, hl⟩
    · cases hs
  | wake =>
    simp only [step] at hs
    split at hs
    · rename_i hw; injection hs with hs; subst hs; rw [hw] at hl; exact ⟨hm, hl⟩
    · cases hs
  | tick d => injection hs with hs; subst hs; exact ⟨hm, hl⟩
  | adjust d => injection hs with hs; subst hs; exact ⟨hm, hl⟩
  | call t op =>
    simp only [step] at hs
    split at hs
    · injection hs with hs; subst hs; exact ⟨hm, hl⟩
    · cases hs
  | client t =>
    simp only [step, client] at hs
    cases hw : s.cpc t <;> rw [hw] at hs <;> simp only [reduceCtorEq] at hs
    case deleteStore =>
      injection hs with hs; subst hs
      refine ⟨fun _ => by simp [St.emit, isMark], ?_⟩
      simp only [St.emit, St.c, life, List.any_cons, isMark, Bool.true_or, and_true]
      revert hl
      cases s.pc <;> simp only <;> intro hl <;> first | exact hl | (rcases hl with hl | hl <;> simp [hl]; done) |
        (rcases hl with hl | ⟨hl | hl, _⟩ <;> simp [hl])
    all_goals (try split at hs)
    all_goals (first | cases hs; done | (injection hs with hs; subst hs))
    all_goals (first
      | exact ⟨hm, hl⟩
      | exact ⟨fun hh => by simpa [St.emit, St.c, isMark] using hm hh,
          by simpa [St.emit, St.c, life, isMark] using hl⟩)

/-- The full claim of C104: in a run that ended, unless the object was being destroyed, `on_stop` was called exactly once. -/
def onStops : List Event → Nat
  | [] => 0
  | .onStop :: l | .stopOnStop _ :: l => onStops l + 1
  | _ :: l => onStops l

def runs : List Event → Nat
  | [] => 0
  | .entered :: l => runs l + 1
  | _ :: l => runs l

def C104_statement : Prop :=
  ∀ ms s, Reach ms s → (life s.log).isSome = true ∧
    (s.pc = .finished → ¬ Marked s.log → runs s.log = 1 → onStops s.log = 1)

/-- C104 fails: both `stop` and the end of `run` call `on_stop`. -/
theorem C104_counterexample : ¬ C104_statement := by
  intro h
  have hk : (exec (init 100) ([.start] ++ List.replicate 9 .thread ++ [.call 7 .stop, .client 7, .client 7, .client 7, .wake] ++
      List.replicate 8 .thread)).map (fun s => (s.pc, s.log)) =
      some (.finished, [.exited 0, .onStop, .stopOnStop 7, .stopStored 7, .begun 0, .onStart, .entered]) := by decide +kernel
  cases hs : exec (init 100) ([.start] ++ List.replicate 9 .thread ++
      [.call 7 .stop, .client 7, .client 7, .client 7, .wake] ++ List.replicate 8 .thread) with
  | none => rw [hs] at hk; cases hk
  | some s =>
    rw [hs] at hk
    simp only [Option.map_some, Option.some.injEq, Prod.mk.injEq] at hk
    have := (h 100 s ⟨_, hs⟩).2 hk.1 (by rw [hk.2]; simp [Marked, isMark]) (by rw [hk.2]; rfl)
    rw [hk.2] at this
    cases this

/-- C104: moreover the `on_stop` of `stop` is not protected by the mutex, it can run while `on_interval` is executing. -/
theorem C104_counterexample_overlap : ∃ s : St, Reach 100 s ∧ s.pc = .inCall ∧ s.cpc 7 = .stopCallback := by
  have hk : (exec (init 100) ([.start] ++ List.replicate 9 .thread ++ [.tick 100000000, .timeout] ++ List.replicate 4 .thread ++
      [.call 7 .stop, .client 7])).map (fun s => (s.pc, s.cpc 7)) = some (.inCall, .stopCallback) := by decide +kernel
  cases hs : exec (init 100) ([.start] ++ List.replicate 9 .thread ++ [.tick 100000000, .timeout] ++ List.replicate 4 .thread ++
      [.call 7 .stop, .client 7]) with
  | none => rw [hs] at hk; cases hk
  | some s =>
    rw [hs] at hk
    simp only [Option.map_some, Option.some.injEq, Prod.mk.injEq] at hk
    exact ⟨s, ⟨_, hs⟩, hk.1, hk.2⟩

/-- C104, the part that holds: the callbacks of the thread itself come in the required order, `on_start` exactly once in
each run before the first `on_interval`, `on_stop` exactly once after the last; either may be missing only when the
object is being destroyed. Missing: the additional `on_stop` of every `stop`. -/
theorem C104_thread_partial (ms : Nat) (s : St) (h : Reach ms s) :
    (life s.log).isSome = true ∧ (s.pc = .finished → life s.log = some .out) := by
  have hi := reach_ind (P := LInv) ⟨fun hh => (by cases hh), rfl⟩ (fun _ _ _ => linv_step) h
  have hl := hi.life
  constructor
  · cases hw : s.pc <;> rw [hw] at hl <;> simp only at hl <;>
      first | (rw [hl]; rfl) | (rcases hl with hl | ⟨hl, _⟩ <;> rw [hl] <;> rfl) |
        (rcases hl with hl | ⟨hl | hl, _⟩ <;> rw [hl] <;> rfl)
  · intro hw
    rw [hw] at hl
    exact hl

/-- What `life` says about a completed run: `on_stop` was called by the thread as often as runs ended. -/
def ownOnStops : List Event → Nat
  | [] => 0
  | .onStop :: l => ownOnStops l + 1
  | _ :: l => ownOnStops l

theorem C104_count_partial (l : List Event) (hm : ¬ Marked l) : ∀ p, life l = some p →
    ownOnStops l + (if p = .pre ∨ p = .on then 1 else 0) = runs l := by
  induction l with
  | nil => intro p hp; simp only [life, Option.some.injEq] at hp; subst hp; rfl
  | cons e l ih =>
    intro p hp
    have hm' : ¬ Marked l := by
      intro hh
      exact hm (by simp only [Marked, List.any_cons, Bool.or_eq_true]; exact .inr hh)
    have ih := ih hm'
    have hm2 : l.any isMark = false := by simpa [Marked] using hm'
    cases e <;> simp only [life, hm2] at hp <;> simp only [ownOnStops, runs]
    all_goals (first | exact ih p hp | skip)
    all_goals (cases hq : life l <;> rw [hq] at hp <;> simp only [Option.some.injEq, reduceCtorEq, if_false] at hp)
    all_goals (rename_i q; have ih := ih q hq; cases q <;> simp at hp)
    all_goals (subst hp; simp at ih ⊢; omega)

/-! ### C113 -/

/-- The full claim of C113: no data race on `_interval_ms`, the only member that is neither atomic nor protected. -/
def C113_statement : Prop := ∀ ms s, Reach ms s → ∀ t, ¬ Race s t

/-- C113 fails: `set_interval` writes `_interval_ms` while `run` reads it. -/
theorem C113_counterexample : ¬ C113_statement := by
  intro h
  have hk : (exec (init 100) [.start, .call 7 (.setInterval 5)]).map (fun s => (s.pc, s.cpc 7)) =
      some (.enter, .intervalStore 5) := by decide +kernel
  cases hs : exec (init 100) [.start, .call 7 (.setInterval 5)] with
  | none => rw [hs] at hk; cases hk
  | some s =>
    rw [hs] at hk
    simp only [Option.map_some, Option.some.injEq, Prod.mk.injEq] at hk
    exact h 100 s ⟨_, hs⟩ 7 ⟨false, true, by rw [hk.1]; simp [Pc.accesses], by rw [hk.2]; simp [CPc.accesses], .inr rfl⟩

/-- C113, the part that holds: `set_interval` is needed for a race. Missing: `set_interval` on a started timer. -/
theorem C113_races_partial (s : St) (t : Nat) (h : Race s t) : ∃ ms, s.cpc t = .intervalStore ms := by
  obtain ⟨w, w', _, h2, _⟩ := h
  cases hw : s.cpc t <;> rw [hw] at h2 <;> simp [CPc.accesses] at h2
  exact ⟨_, rfl⟩

/-! ### C114 -/

/-- The full claim of C114: while a `notify` has not been followed by a call of `on_interval`, the request is pending. -/
def pending : List Event → Bool
  | [] => false
  | .notified _ :: _ => true
  | .interval _ :: _ => false
  | _ :: l => pending l

def C114_statement : Prop := ∀ ms s, Reach ms s → pending s.log = true → s.forced = true

/-- C114 fails: a `notify` during `on_interval` is wiped out by the assignment after the call. -/
theorem C114_counterexample : ¬ C114_statement := by
  intro h
  have hk : (exec (init 100) ([.start] ++ List.replicate 9 .thread ++ [.tick 100000000, .timeout] ++ List.replicate 4 .thread ++
      [.call 7 .notify, .client 7, .client 7, .ret 0, .thread])).map (fun s => (s.forced, pending s.log)) =
      some (false, true) := by decide +kernel
  cases hs : exec (init 100) ([.start] ++ List.replicate 9 .thread ++ [.tick 100000000, .timeout] ++ List.replicate 4 .thread ++
      [.call 7 .notify, .client 7, .client 7, .ret 0, .thread]) with
  | none => rw [hs] at hk; cases hk
  | some s =>
    rw [hs] at hk
    simp only [Option.map_some, Option.some.injEq, Prod.mk.injEq] at hk
    have := h 100 s ⟨_, hs⟩ hk.2
    rw [hk.1] at this
    cases this

/-- Between the call of `on_interval` and the assignment that clears the request. -/
def Pc.clearing : Pc → Bool
  | .inCall | .clearForced => true
  | _ => false

theorem intervals_mono {s s' : St} {a : Act} (hs : step s a = some s') : intervals s.log ≤ intervals s'.log := by
  have hc : ∀ (e : Event) (l : List Event), intervals l ≤ intervals (e :: l) := by
    intro e l; cases e <;> simp [intervals]
  cases a with
  | thread =>
    simp only [step, thread] at hs
    cases hw : s.pc <;> rw [hw] at hs <;> simp only [reduceCtorEq] at hs
    all_goals (try split at hs)
    all_goals (first | cases hs; done | (injection hs with hs))
    all_goals (try split at hs)
    all_goals (subst hs)
    all_goals (first | exact Nat.le_refl _ | exact hc _ _)
  | client t =>
    simp only [step, client] at hs
    split at hs
    all_goals (try split at hs)
    all_goals (first | cases hs; done | (injection hs with hs; subst hs))
    all_goals (first | exact Nat.le_refl _ | exact hc _ _)
  | tick d => injection hs with hs; subst hs; exact Nat.le_refl _
  | adjust d => injection hs with hs; subst hs; exact Nat.le_refl _
  | start =>
    simp only [step] at hs
    split at hs
    · injection hs with hs; subst hs; exact Nat.le_refl _
    · cases hs
  | ret v =>
    simp only [step] at hs
    split at hs
    · injection hs with hs; subst hs; exact Nat.le_refl _
    · cases hs
  | timeout =>
    simp only [step] at hs
    split at hs
    · injection hs with hs; subst hs; exact Nat.le_refl _
    · cases hs
  | wake =>
    simp only [step] at hs
    split at hs
    · injection hs with hs; subst hs; exact Nat.le_refl _
    · cases hs
  | call t op =>
    simp only [step] at hs
    split at hs
    · injection hs with hs; subst hs; exact Nat.le_refl _
    · cases hs

theorem exec_mono : ∀ (sched : List Act) {s s' : St}, exec s sched = some s' → intervals s.log ≤ intervals s'.log := by
  intro sched
  induction sched with
  | nil => intro s s' hs; injection hs with hs; subst hs; exact Nat.le_refl _
  | cons a as ih =>
    intro s s' hs
    cases h1 : step s a with
    | none => simp [exec, h1] at hs
    | some s1 => rw [exec_cons h1] at hs; exact Nat.le_trans (intervals_mono h1) (ih hs)

theorem forced_step {s s' : St} {a : Act} (h : s.forced = true ∧ s.pc.clearing = false) (hs : step s a = some s')
    (hi : intervals s'.log = intervals s.log) : s'.forced = true ∧ s'.pc.clearing = false := by
  obtain ⟨hf, hp⟩ := h
  cases a with
  | thread =>
    simp only [step, thread] at hs
    cases hw : s.pc <;> rw [hw] at hs hp <;> simp only [reduceCtorEq, Pc.clearing, Bool.true_eq_false] at hs hp
    case call => injection hs with hs; subst hs; simp [St.emit, St.goto, intervals] at hi
    all_goals (try split at hs)
    all_goals (first | cases hs; done | (injection hs with hs))
    all_goals (try split at hs)
    all_goals (subst hs)
    all_goals (first | exact ⟨hf, rfl⟩ | (refine ⟨hf, ?_⟩; simp only [St.goto]; split <;> rfl))
  | client t =>
    simp only [step, client] at hs
    split at hs
    all_goals (try split at hs)
    all_goals (first | cases hs; done | (injection hs with hs; subst hs))
    all_goals (first | exact ⟨hf, hp⟩ | exact ⟨rfl, hp⟩)
  | tick d => injection hs with hs; subst hs; exact ⟨hf, hp⟩
  | adjust d => injection hs with hs; subst hs; exact ⟨hf, hp⟩
  | start =>
    simp only [step] at hs
    split at hs
    · injection hs with hs; subst hs; exact ⟨hf, rfl⟩
    · cases hs
  | ret v =>
    simp only [step] at hs
    split at hs
    · rename_i hw; rw [hw] at hp; cases hp
    · cases hs
  | timeout =>
    simp only [step] at hs
    split at hs
    · injection hs with hs; subst hs; exact ⟨hf, rfl⟩
    · cases hs
  | wake =>
    simp only [step] at hs
    split at hs
    · injection hs with hs; subst hs; exact ⟨hf, rfl⟩
    · cases hs
  | call t op =>
    simp only [step] at hs
    split at hs
    · injection hs with hs; subst hs; exact ⟨hf, hp⟩
    · cases hs

/-- C114, the part that holds: a `notify` that does not come during `on_interval` stays pending until the next call of
`on_interval`, and the next time the thread wakes up it makes that call. Missing: a `notify` during the call. -/
theorem C114_pending_partial (s : St) (t : Nat) (hc : s.cpc t = .forcedStore) (hp : s.pc.clearing = false) :
    ∃ s1, step s (.client t) = some s1 ∧
    ∀ sched s2, exec s1 sched = some s2 → intervals s2.log = intervals s.log →
      s2.forced = true ∧ ∀ tmo, s2.pc = .testForced tmo → ∃ s3, step s2 .thread = some s3 ∧ s3.pc = .call := by
  have hs : step s (.client t) = some ({ s.c t .forcedNotify with forced := true }.emit (.notified t)) := by
    simp [step, client, hc]
  refine ⟨_, hs, fun sched s2 he hi => ?_⟩
  have key : ∀ (sched : List Act) (s s2 : St), s.forced = true ∧ s.pc.clearing = false → exec s sched = some s2 →
      intervals s2.log = intervals s.log → s2.forced = true ∧ s2.pc.clearing = false := by
    intro sched
    induction sched with
    | nil => intro s s2 h hs _; injection hs with hs; subst hs; exact h
    | cons a as ih =>
      intro s s2 h hs hi
      cases h1 : step s a with
      | none => simp [exec, h1] at hs
      | some s1 =>
        rw [exec_cons h1] at hs
        have m1 := intervals_mono h1
        have m2 := exec_mono as hs
        exact ih s1 s2 (forced_step h h1 (by omega)) hs (by omega)
  obtain ⟨h1, _⟩ := key sched ({ s.c t .forcedNotify with forced := true }.emit (.notified t)) s2 ⟨rfl, hp⟩ he hi
  refine ⟨h1, fun tmo hw => ⟨s2.goto .call, ?_, rfl⟩⟩
  simp [step, thread, hw, h1]

end Verif.Timer
