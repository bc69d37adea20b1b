import Verif.Conc.TimerProps

/-
C127: the timer is not late (timer.h:124-151).  How late a call of `on_interval` comes is measured against the time the timer
thread spends doing anything but sleeping, and against the wake-ups without timeout.
-/

namespace Verif.Timer

/-- The system clock is not set back, and the interval is not changed. -/
def Act.forwards : Act → Bool
  | .call _ (.setInterval _) => false
  | .adjust d => decide (0 ≤ d)
  | _ => true

def CPc.steady : CPc → Bool
  | .intervalStore _ => false
  | _ => true

/-- The step begins a new interval: the clock is started, or `on_interval` returns. -/
def begins (s : St) : Act → Bool
  | .ret _ => true
  | .thread => s.pc == .stamp
  | _ => false

/-- The part of the next `d` nanoseconds that the thread sleeps as it asked to. -/
def slept (s : St) (d : Nat) : Int := if s.pc = .waiting then max 0 (min d (s.deadline - s.now)) else 0

/-- Wake-ups of the thread in the current interval. -/
def wakes (s : St) (a : Act) (w : Nat) : Nat :=
  if begins s a then 0 else match a with
    | .wake => w + 1
    | _ => w

/-- Time of the current interval during which the thread was awake, or had slept longer than it asked to. -/
def awake (s : St) (a : Act) (o : Int) : Int :=
  if begins s a then 0 else match a with
    | .tick d => o + (d - slept s d)
    | _ => o

/-- The reachable states, with the wake-ups and the time awake in the current interval. -/
inductive Late (ms : Nat) : St → Nat → Int → Prop
  | init : Late ms (init ms) 0 0
  | step {s w o a s'} (h : Late ms s w o) (ha : a.forwards = true) (hs : step s a = some s') :
      Late ms s' (wakes s a w) (awake s a o)

/-- The thread is between the beginning of an interval and the call that ends it. -/
def Pc.pending : Pc → Bool
  | .lock | .wait | .waiting | .relock _ | .testRunning _ | .testForced _ | .call | .adjRem => true
  | _ => false

/-- The full claim of C127: while the current interval has not ended in a call of `on_interval`, no more time has passed
than the interval and the time the thread was awake. -/
def C127_statement : Prop :=
  ∀ ms s w o, Late ms s w o → s.pc.pending = true → ∃ b, since s.log = some b ∧ s.now ≤ b + ms * K + o

/-- What may pass beyond the interval. -/
def Due (ms : Nat) (s : St) (A : Int) : Prop :=
  match s.pc with
  | .idle | .enter | .startLock | .startBody | .startUnlock | .setRunning | .stopLock | .stopBody | .stopUnlock
  | .finish | .finished | .inCall | .stamp => True
  | .loopTest | .unlock => s.isRunning = true →
    ∃ b, since s.log = some b ∧ s.now + s.rem * 1000000 ≤ b + ms * 1000000 + A ∧
      s.stampAt + s.rem * 1000000 ≤ b + ms * 1000000 + A ∧ s.now ≤ b + ms * 1000000 + A
  | .lock | .wait =>
    ∃ b, since s.log = some b ∧ s.now + s.rem * 1000000 ≤ b + ms * 1000000 + A ∧
      s.stampAt + s.rem * 1000000 ≤ b + ms * 1000000 + A ∧ s.now ≤ b + ms * 1000000 + A
  | .waiting =>
    ∃ b, since s.log = some b ∧ s.now ≤ b + ms * 1000000 + A ∧ s.deadline ≤ b + ms * 1000000 + A ∧
      s.stampAt + s.rem * 1000000 ≤ b + ms * 1000000 + A
  | .relock tmo | .testRunning tmo | .testForced tmo =>
    ∃ b, since s.log = some b ∧ s.now ≤ b + ms * 1000000 + A ∧
      (tmo = false → s.stampAt + s.rem * 1000000 + 999999 ≤ b + ms * 1000000 + A)
  | .adjRem =>
    ∃ b, since s.log = some b ∧ s.now ≤ b + ms * 1000000 + A ∧
      s.stampAt + s.rem * 1000000 + 999999 ≤ b + ms * 1000000 + A
  | .call => ∃ b, since s.log = some b ∧ s.now ≤ b + ms * 1000000 + A
  | .clearForced | .loadRunning | .storeRunning _ | .setRem => ∃ b, since s.log = some b ∧ s.now ≤ b + A
  | .reset => ∃ b, since s.log = some b ∧ s.now + s.rem * 1000000 ≤ b + ms * 1000000 + A ∧ s.now ≤ b + ms * 1000000 + A

structure DInv (ms : Nat) (s : St) (A : Int) : Prop where
  pos    : 0 ≤ A
  int    : s.interval = ms
  steady : ∀ t, (s.cpc t).steady = true
  past   : s.stampAt ≤ s.now
  wall   : s.now - s.stampAt ≤ s.wall - s.stamp
  start  : s.pc = .startLock ∨ s.pc = .startBody ∨ s.pc = .startUnlock ∨ s.pc = .setRunning ∨ s.pc = .stamp → s.rem = ms
  due    : Due ms s A

/-- Less than a millisecond is lost by truncation. -/
theorem tdiv_ge {a b : Int} (h : b ≤ a) (hb : 0 ≤ b) : b ≤ a.tdiv K * 1000000 + 999999 := by
  unfold K
  rw [Int.tdiv_eq_ediv_of_nonneg (by omega)]
  omega

theorem dinv_thread {ms : Nat} {s s' : St} {A : Int} (h : DInv ms s A) (hs : thread s = some s') :
    DInv ms s' (if s.pc == .stamp then 0 else A) := by
  obtain ⟨hpos, hint, hcalm, hpast, hwall, hstart, ht⟩ := h
  unfold thread at hs
  unfold Due at ht
  cases hw : s.pc <;> rw [hw] at hs hstart ht <;>
    simp only [reduceCtorEq, or_self, or_true, true_or, or_false, false_or, false_implies, true_implies, beq_iff_eq, if_false,
      if_true] at hs hstart ht ⊢
  case enter =>
    injection hs with hs; subst hs
    exact ⟨hpos, hint, hcalm, hpast, hwall, fun _ => hint, trivial⟩
  case startLock =>
    split at hs
    · injection hs with hs; subst hs
      exact ⟨hpos, hint, hcalm, hpast, hwall, fun _ => hstart, trivial⟩
    · cases hs
  case startBody =>
    injection hs with hs
    split at hs <;> subst hs <;> exact ⟨hpos, hint, hcalm, hpast, hwall, fun _ => hstart, trivial⟩
  case startUnlock =>
    injection hs with hs; subst hs
    exact ⟨hpos, hint, hcalm, hpast, hwall, fun _ => hstart, trivial⟩
  case setRunning =>
    injection hs with hs; subst hs
    exact ⟨hpos, hint, hcalm, hpast, hwall, fun _ => hstart, trivial⟩
  case stamp =>
    injection hs with hs; subst hs
    refine ⟨Int.le_refl _, hint, hcalm, Int.le_refl _, by simp [St.goto, St.emit], by simp [St.goto, St.emit], ?_⟩
    intro _
    refine ⟨s.now, rfl, ?_⟩
    simp only [St.goto, St.emit, hstart]
    omega
  case loopTest =>
    injection hs with hs; subst hs
    refine ⟨hpos, hint, hcalm, hpast, hwall, ?_, ?_⟩
    · split <;> simp [St.goto]
    · cases hr : s.isRunning with
      | true => exact ht hr
      | false => trivial
  case lock =>
    split at hs
    · injection hs with hs; subst hs
      exact ⟨hpos, hint, hcalm, hpast, hwall, by simp [St.goto], ht⟩
    · cases hs
  case wait =>
    injection hs with hs; subst hs
    obtain ⟨b, h1, h2, h3, h4⟩ := ht
    exact ⟨hpos, hint, hcalm, hpast, hwall, by simp [St.goto], b, h1, h4, by simpa [St.goto, K] using h2, h3⟩
  case relock tmo =>
    split at hs
    · injection hs with hs; subst hs
      exact ⟨hpos, hint, hcalm, hpast, hwall, by simp [St.goto], ht⟩
    · cases hs
  case testRunning tmo =>
    injection hs with hs; subst hs
    refine ⟨hpos, hint, hcalm, hpast, hwall, by split <;> simp [St.goto], ?_⟩
    cases hr : s.isRunning with
    | true => exact ht
    | false => intro hh; rw [show s.isRunning = true from hh] at hr; cases hr
  case testForced tmo =>
    injection hs with hs; subst hs
    refine ⟨hpos, hint, hcalm, hpast, hwall, by split <;> simp [St.goto], ?_⟩
    obtain ⟨b, h1, h2, h3⟩ := ht
    cases tmo with
    | true => exact ⟨b, h1, h2⟩
    | false =>
      cases hf : s.forced with
      | true => exact ⟨b, h1, h2⟩
      | false => exact ⟨b, h1, h2, h3 rfl⟩
  case call =>
    injection hs with hs; subst hs
    exact ⟨hpos, hint, hcalm, hpast, hwall, by simp [St.goto, St.emit], trivial⟩
  case clearForced =>
    injection hs with hs; subst hs
    exact ⟨hpos, hint, hcalm, hpast, hwall, by simp [St.goto], ht⟩
  case loadRunning =>
    injection hs with hs; subst hs
    exact ⟨hpos, hint, hcalm, hpast, hwall, by simp [St.goto], ht⟩
  case storeRunning b =>
    injection hs with hs; subst hs
    exact ⟨hpos, hint, hcalm, hpast, hwall, by simp [St.goto], ht⟩
  case setRem =>
    injection hs with hs; subst hs
    obtain ⟨b, h1, h2⟩ := ht
    refine ⟨hpos, hint, hcalm, hpast, hwall, by simp [St.goto], b, h1, ?_⟩
    simp only [St.goto, hint]
    omega
  case adjRem =>
    injection hs with hs; subst hs
    obtain ⟨b, h1, h2, h3⟩ := ht
    refine ⟨hpos, hint, hcalm, hpast, hwall, by simp [St.goto], b, h1, ?_, h2⟩
    simp only [St.goto, hint]
    have hd := tdiv_ge hwall (by omega)
    rcases Int.le_total (ms : Int) (s.rem - (s.wall - s.stamp).tdiv K) with hm | hm
    · rw [Int.min_eq_left hm]; omega
    · rw [Int.min_eq_right hm, Int.sub_mul]; omega
  case reset =>
    injection hs with hs; subst hs
    obtain ⟨b, h1, h2, h3⟩ := ht
    exact ⟨hpos, hint, hcalm, Int.le_refl _, by simp [St.goto], by simp [St.goto], fun _ => ⟨b, h1, h2, h2, h3⟩⟩
  case unlock =>
    injection hs with hs; subst hs
    exact ⟨hpos, hint, hcalm, hpast, hwall, by simp [St.goto], ht⟩
  case stopLock =>
    split at hs
    · injection hs with hs; subst hs
      exact ⟨hpos, hint, hcalm, hpast, hwall, by simp [St.goto], trivial⟩
    · cases hs
  case stopBody =>
    injection hs with hs
    split at hs <;> subst hs <;> exact ⟨hpos, hint, hcalm, hpast, hwall, by simp [St.goto, St.emit], trivial⟩
  case stopUnlock =>
    injection hs with hs; subst hs
    exact ⟨hpos, hint, hcalm, hpast, hwall, by simp [St.goto], trivial⟩
  case finish =>
    injection hs with hs; subst hs
    exact ⟨hpos, hint, hcalm, hpast, hwall, by simp [St.goto, St.emit], trivial⟩

/-- Steps that leave the thread alone. -/
theorem due_keep {ms : Nat} {s s' : St} {A : Int} (h : Due ms s A) (hpc : s'.pc = s.pc) (hsin : since s'.log = since s.log)
    (hst : s'.stampAt = s.stampAt) (hrem : s'.rem = s.rem) (hdl : s'.deadline = s.deadline) (hn : s'.now = s.now)
    (hr : s'.isRunning = true → s.isRunning = true) : Due ms s' A := by
  unfold Due at h ⊢
  rw [hpc]
  cases hw : s.pc <;> rw [hw] at h <;> simp only [hsin, hst, hrem, hdl, hn] at h ⊢
  all_goals (first | exact h | exact fun hh => h (hr hh))

theorem dinv_client {ms : Nat} {s s' : St} {A : Int} (h : DInv ms s A) (t : Nat) (hs : client s t = some s') :
    DInv ms s' A := by
  obtain ⟨hpos, hint, hcalm, hpast, hwall, hstart, ht⟩ := h
  have hct := hcalm t
  unfold client at hs
  have hcal : ∀ p : CPc, p.steady = true → ∀ u, (if u = t then p else s.cpc u).steady = true := by
    intro p hp u
    split
    · exact hp
    · exact hcalm u
  cases hw : s.cpc t <;> rw [hw] at hs hct <;> simp only [CPc.steady, reduceCtorEq, Bool.false_eq_true] at hs hct
  all_goals (try split at hs)
  all_goals (first | cases hs; done | (injection hs with hs; subst hs))
  all_goals
    refine ⟨hpos, hint, fun u => hcal _ rfl u, hpast, hwall, hstart, ?_⟩
    exact due_keep ht rfl rfl rfl rfl rfl rfl (by first | exact id | (intro hh; cases hh))

theorem due_tick {ms : Nat} {s : St} {A : Int} (d : Nat) (h : Due ms s A) :
    Due ms { s with now := s.now + d, wall := s.wall + d } (A + (d - slept s d)) := by
  unfold Due at h ⊢
  unfold slept
  cases hw : s.pc <;> rw [hw] at h <;> simp only [reduceCtorEq, if_false, if_true] at h ⊢
  all_goals (first
    | exact h
    | (intro hh; obtain ⟨b, h1, h2⟩ := h hh; exact ⟨b, h1, by omega⟩)
    | (obtain ⟨b, h1, h2⟩ := h; exact ⟨b, h1, by omega⟩)
    | (obtain ⟨b, h1, h2, h3⟩ := h; exact ⟨b, h1, by omega, fun e => by have := h3 e; omega⟩))

theorem dinv_step {ms : Nat} {s s' : St} {w : Nat} {o : Int} {a : Act} (ha : a.forwards = true)
    (h : DInv ms s (w * 999999 + o)) (ho : 0 ≤ o) (hs : step s a = some s') :
    DInv ms s' (wakes s a w * 999999 + awake s a o) := by
  cases a with
  | thread =>
    have := dinv_thread h hs
    unfold wakes awake begins
    split at this
    · rename_i hp
      simpa [hp] using this
    · rename_i hp
      simpa [hp] using this
  | client t => exact dinv_client h t hs
  | start =>
    obtain ⟨hpos, hint, hcalm, hpast, hwall, hstart, ht⟩ := h
    simp only [step] at hs
    split at hs
    · injection hs with hs; subst hs
      exact ⟨hpos, hint, hcalm, hpast, hwall, by simp [St.goto], trivial⟩
    · cases hs
  | ret v =>
    obtain ⟨hpos, hint, hcalm, hpast, hwall, hstart, ht⟩ := h
    simp only [step] at hs
    split at hs
    · injection hs with hs; subst hs
      exact ⟨by simp [wakes, awake, begins], hint, hcalm, hpast, hwall, by simp [St.goto, St.emit], s.now, rfl,
        by simp [wakes, awake, begins, St.emit, St.goto]⟩
    · cases hs
  | timeout =>
    obtain ⟨hpos, hint, hcalm, hpast, hwall, hstart, ht⟩ := h
    simp only [step] at hs
    split at hs
    · rename_i hw
      injection hs with hs; subst hs
      unfold Due at ht
      rw [hw.1] at ht
      obtain ⟨b, h1, h2, h3, h4⟩ := ht
      exact ⟨hpos, hint, hcalm, hpast, hwall, by simp [St.goto], b, h1, h2, fun hh => by cases hh⟩
    · cases hs
  | wake =>
    obtain ⟨hpos, hint, hcalm, hpast, hwall, hstart, ht⟩ := h
    simp only [step] at hs
    split at hs
    · rename_i hw
      injection hs with hs; subst hs
      unfold Due at ht
      rw [hw] at ht
      obtain ⟨b, h1, h2, h3, h4⟩ := ht
      have e : ((wakes s .wake w : Nat) : Int) * 999999 + awake s .wake o = w * 999999 + o + 999999 := by
        simp only [wakes, awake, begins, Bool.false_eq_true, if_false]
        omega
      rw [e]
      exact ⟨by omega, hint, hcalm, hpast, hwall, by simp [St.goto], b, h1, by simp only [St.goto]; omega,
        fun _ => by simp only [St.goto]; omega⟩
    · cases hs
  | tick d =>
    obtain ⟨hpos, hint, hcalm, hpast, hwall, hstart, ht⟩ := h
    injection hs with hs; subst hs
    have e : ((wakes s (.tick d) w : Nat) : Int) * 999999 + awake s (.tick d) o = w * 999999 + o + (d - slept s d) := by
      simp only [wakes, awake, begins, Bool.false_eq_true, if_false]
      omega
    have hsl : slept s d ≤ d := by unfold slept; split <;> omega
    rw [e]
    exact ⟨by omega, hint, hcalm, by simp only; omega, by simp only; omega, hstart, due_tick d ht⟩
  | adjust d =>
    obtain ⟨hpos, hint, hcalm, hpast, hwall, hstart, ht⟩ := h
    have hd : 0 ≤ d := by simpa [Act.forwards] using ha
    injection hs with hs; subst hs
    exact ⟨hpos, hint, hcalm, hpast, by simp only; omega, hstart, due_keep ht rfl rfl rfl rfl rfl rfl id⟩
  | call t op =>
    obtain ⟨hpos, hint, hcalm, hpast, hwall, hstart, ht⟩ := h
    simp only [step] at hs
    split at hs
    · injection hs with hs; subst hs
      refine ⟨hpos, hint, fun u => ?_, hpast, hwall, hstart, due_keep ht rfl rfl rfl rfl rfl rfl id⟩
      simp only [St.c]
      split
      · cases op <;> simp [Act.forwards] at ha <;> rfl
      · exact hcalm u
    · cases hs

theorem awake_nonneg {s : St} {a : Act} {o : Int} (h : 0 ≤ o) : 0 ≤ awake s a o := by
  unfold awake
  split
  · exact Int.le_refl _
  · split
    · rename_i d _
      have : slept s d ≤ d := by unfold slept; split <;> omega
      omega
    · exact h

theorem late_inv {ms : Nat} {s : St} {w : Nat} {o : Int} (h : Late ms s w o) : DInv ms s (w * 999999 + o) ∧ 0 ≤ o := by
  induction h with
  | init => exact ⟨⟨by simp, rfl, fun _ => rfl, Int.le_refl _, Int.le_refl _, by simp [init], trivial⟩, Int.le_refl _⟩
  | step h ha hs ih => exact ⟨dinv_step ha ih.1 ih.2 hs, awake_nonneg ih.2⟩

/-- **C127** (partial).  Full claim: `C127_statement`, that the call is due after the interval and the time the thread was
awake.  Proved: at most a millisecond per wake-up without timeout more; so the full claim holds for intervals without
wake-up.  Missing: intervals with such wake-ups, for which the claim is false (`C127_counterexample`). -/
theorem C127_not_late_partial (ms : Nat) (s : St) (w : Nat) (o : Int) (h : Late ms s w o) (hp : s.pc.pending = true) :
    ∃ b, since s.log = some b ∧ s.now ≤ b + ms * K + w * (K - 1) + o := by
  have hd := (late_inv h).1.due
  unfold Due at hd
  unfold K
  cases hw : s.pc <;> rw [hw] at hp hd <;> simp only [Pc.pending, Bool.false_eq_true] at hp hd
  all_goals (obtain ⟨b, h1, h2⟩ := hd; exact ⟨b, h1, by omega⟩)

/-- The same for intervals without wake-up, as in the full claim. -/
theorem C127_undisturbed_partial (ms : Nat) (s : St) (o : Int) (h : Late ms s 0 o) (hp : s.pc.pending = true) :
    ∃ b, since s.log = some b ∧ s.now ≤ b + ms * K + o := by
  obtain ⟨b, h1, h2⟩ := C127_not_late_partial ms s 0 o h hp
  exact ⟨b, h1, by simpa using h2⟩

/-- **C127**: when the time is over and the timer has not been stopped, the thread calls `on_interval`, in four steps of its
own, unless a client holds the mutex. -/
theorem C127_timeout (s : St) (h1 : s.pc = .waiting) (h2 : s.deadline ≤ s.now) (h3 : s.isRunning = true) (h4 : s.mtx = none) :
    ∃ s', exec s [.timeout, .thread, .thread, .thread, .thread] = some s' ∧ s'.pc = .inCall ∧
      s'.log = .interval s.now :: s.log := by
  refine ⟨{ s with pc := .inCall, mtx := some .thread, log := .interval s.now :: s.log }, ?_, rfl, rfl⟩
  simp [exec, step, thread, St.goto, St.emit, h1, h2, h3, h4]

/-! The counterexample: the thread is woken every 0.999999 ms. -/

/-- Asleep, with the whole interval ahead. -/
structure Asleep (ms : Nat) (s : St) : Prop where
  pc  : s.pc = .waiting
  mtx : s.mtx = none
  run : s.isRunning = true
  fc  : s.forced = false
  int : s.interval = ms
  rem : s.rem = ms
  stp : s.stamp = s.wall
  dl  : s.deadline = s.now + ms * K

def nudge : List Act := [.tick 999999, .wake, .thread, .thread, .thread, .thread, .thread, .thread, .thread, .thread, .thread]

/-- Along a schedule. -/
def track : St × Nat × Int → List Act → Option (St × Nat × Int)
  | x, [] => some x
  | (s, w, o), a :: as => (step s a).bind fun s' => track (s', wakes s a w, awake s a o) as

theorem late_track {ms : Nat} : ∀ (sched : List Act) {s s' : St} {w w' : Nat} {o o' : Int}, Late ms s w o →
    (∀ a ∈ sched, a.forwards = true) → track (s, w, o) sched = some (s', w', o') → Late ms s' w' o' := by
  intro sched
  induction sched with
  | nil => intro s s' w w' o o' h _ hs; simp only [track, Option.some.injEq, Prod.mk.injEq] at hs; obtain ⟨rfl, rfl, rfl⟩ := hs; exact h
  | cons a as ih =>
    intro s s' w w' o o' h ha hs
    cases h1 : step s a with
    | none => simp [track, h1] at hs
    | some s1 =>
      simp only [track, h1, Option.bind_some] at hs
      exact ih (.step h (ha a (by simp)) h1) (fun b hb => ha b (by simp [hb])) hs

theorem nudge_ok {ms : Nat} (hm : 1 ≤ ms) {s : St} (h : Asleep ms s) (w : Nat) :
    ∃ s', track (s, w, 0) nudge = some (s', w + 1, 0) ∧ Asleep ms s' ∧ s'.log = s.log ∧ s'.now = s.now + 999999 := by
  obtain ⟨h1, h2, h3, h4, h5, h6, h7, h8⟩ := h
  have hK : (999999 : Int) < K := by decide
  have ht : (999999 : Int).tdiv K = 0 := by decide
  have hmK : K ≤ ms * K := by
    unfold K; omega
  refine ⟨{ s with now := s.now + 999999, wall := s.wall + 999999, stamp := s.wall + 999999, stampAt := s.now + 999999, deadline := s.now + 999999 + ms * K }, ?_, ?_, rfl, rfl⟩
  · have hsl : slept s 999999 = 999999 := by
      unfold slept
      rw [if_pos h1, h8]
      omega
    have e : s.wall + 999999 - s.wall = 999999 := by omega
    simp [nudge, track, step, thread, wakes, awake, begins, St.goto, h1, h2, h3, h4, h5, h6, h7, hsl, e, ht]
  · exact ⟨h1, h2, h3, h4, h5, h6, rfl, rfl⟩

theorem asleep_start (ms : Nat) : ∃ s, track (init ms, 0, 0) ([.start] ++ List.replicate 9 .thread) = some (s, 0, 0) ∧
    Asleep ms s ∧ s.log = [.begun 0, .onStart, .entered] ∧ s.now = 0 := by
  refine ⟨{ init ms with
      isRunning := true, rem := ms, deadline := 0 + ms * K, pc := .waiting, log := [.begun 0, .onStart, .entered] },
    ?_, ?_, rfl, rfl⟩
  · simp [List.replicate, track, step, thread, wakes, awake, begins, St.goto, St.emit, init]
  · exact ⟨rfl, rfl, rfl, rfl, rfl, rfl, rfl, rfl⟩

theorem nudges_ok {ms : Nat} (hm : 1 ≤ ms) : ∀ n : Nat, ∃ s, Late ms s n 0 ∧ Asleep ms s ∧
    s.log = [.begun 0, .onStart, .entered] ∧ s.now = n * 999999 := by
  intro n
  induction n with
  | zero =>
    obtain ⟨s, h1, h2, h3, h4⟩ := asleep_start ms
    exact ⟨s, late_track _ .init (by decide) h1, h2, h3, by simpa using h4⟩
  | succ n ih =>
    obtain ⟨s, h1, h2, h3, h4⟩ := ih
    obtain ⟨s', e1, e2, e3, e4⟩ := nudge_ok hm h2 n
    exact ⟨s', late_track _ h1 (by decide) e1, e2, by rw [e3, h3], by rw [e4, h4]; omega⟩

/-- C127 fails, for every interval and without any bound: woken often enough, a thread that loses no time never calls
`on_interval`.  Any amount of time `T` passes after the start. -/
theorem C127_counterexample_all (ms : Nat) (hm : 1 ≤ ms) (T : Nat) : ∃ s w, Late ms s w 0 ∧ s.pc = .waiting ∧
    s.isRunning = true ∧ s.log = [.begun 0, .onStart, .entered] ∧ (T : Int) ≤ s.now := by
  obtain ⟨s, h1, h2, h3, h4⟩ := nudges_ok hm T
  exact ⟨s, T, h1, h2.pc, h2.run, h3, by rw [h4]; omega⟩

theorem C127_counterexample : ¬ C127_statement := by
  intro h
  obtain ⟨s, w, h1, h2, -, h3, h4⟩ := C127_counterexample_all 1 (by decide) 1000001
  obtain ⟨b, h5, h6⟩ := h 1 s w 0 h1 (by rw [h2]; rfl)
  rw [h3] at h5
  simp only [since, Option.some.injEq] at h5
  subst h5
  unfold K at h6
  omega

/-- An undisturbed interval: the call is due at 100 ms, the thread was preempted for 300 ns. -/
example : (track (init 100, 0, 0) ([.start] ++ List.replicate 9 .thread ++ [.tick 100000000, .timeout, .tick 300] ++
    List.replicate 3 .thread)).map (fun x => (x.1.pc, x.1.now, since x.1.log, x.2)) =
    some (.call, 100000300, some 0, 0, 300) := by decide +kernel
/-- Two wake-ups: due after 100 ms, called after 101.4999 ms. -/
example : (track (init 100, 0, 0) ([.start] ++ List.replicate 9 .thread ++ [.tick 999900, .wake] ++ List.replicate 9 .thread ++
    [.tick 98500100, .wake] ++ List.replicate 9 .thread ++ [.tick 2000000, .timeout] ++ List.replicate 3 .thread)).map
    (fun x => (x.1.pc, x.1.now, since x.1.log, x.2)) = some (.call, 101500000, some 0, 2, 0) := by decide +kernel

end Verif.Timer
