import Verif.Conc.SemWake

/-
C185: how often a thread that waits in `semaphore_t::lock` (semaphore.h:43-57) is overtaken.

The model is the one of C88 to C92.  A woken thread competes for the mutex with the threads that have just called `lock`, there is
no queue of waiting threads.
-/

namespace Verif.Sem

/-! ### Specification -/

/-- The resources that other threads were given since thread `t` was last heard of; for a thread that waits in `lock`, since it
entered `lock`. -/
def Spec.overtaken (t : Nat) (log : List Event) : Nat :=
  (log.takeWhile (fun e => e.tid != t)).countP Event.isAcq

/-- The calls of `lock` and `try_lock` by thread `u`. -/
def Spec.requests (u : Nat) : List (Nat × Act) → Nat
  | [] => 0
  | (t, .call .lock) :: l | (t, .call .tryLock) :: l => requests u l + if t = u then 1 else 0
  | _ :: l => requests u l

/-- Inside `lock`, after the test of the resources. -/
def Spec.Blocked (p : Pc) : Prop := p = .waiting ∨ p = .woken

open Spec

/-- The full claim of C185: with a given number of resources and of threads, there is a bound on how often a thread in `lock` is
overtaken; although every notification wakes up a thread, and no wait times out. -/
def C185_statement : Prop :=
  ∀ n, n < W → ∀ k, ∃ B, ∀ sched s, exec (init n) sched = some s → Along Heard (init n) sched →
    (∀ l ∈ sched, l.1 < k ∧ l.2 ≠ .timeout) → ∀ t, Blocked (s.pc t) → overtaken t s.log ≤ B

/-! ### One thread can starve -/

/-- Thread 1 releases the resource and notifies thread 2, but is faster to take it again; thread 2 wakes up and waits again. -/
def round : List (Nat × Act) :=
  ((1, .call .unlock) :: List.replicate 5 (1, .go)) ++ [(1, .notify (some 2))] ++
    ((1, .call .lock) :: List.replicate 6 (1, .go)) ++ [(2, .go), (2, .go)]

def startUp : List (Nat × Act) :=
  ((1, .call .lock) :: List.replicate 6 (1, .go)) ++ [(2, .call .lock), (2, .go), (2, .go), (2, .go)]

def starve : Nat → List (Nat × Act)
  | 0 => startUp
  | n + 1 => starve n ++ round

structure Hungry (s : St) : Prop where
  mtx : s.mtx = none
  count : s.count = 1
  avail : s.avail = 1
  one : s.pc 1 = .idle
  two : s.pc 2 = .waiting

theorem round_ok (s : St) (h : Hungry s) :
    ∃ s', exec s round = some s' ∧ Hungry s' ∧ overtaken 2 s'.log = overtaken 2 s.log + 1 := by
  obtain ⟨m, c, a, p, l⟩ := s
  obtain ⟨rfl, rfl, rfl, h1, h2⟩ := h
  simp only at h1 h2
  refine ⟨{ mtx := none, count := 1, avail := 1,
            pc := fun u => if u = 1 then .idle else if u = 2 then .waiting else p u,
            log := .lockRet 1 :: .lockPass 1 :: .unlockDone 1 true :: .unlockCall 1 :: l }, ?_, ⟨rfl, rfl, rfl, rfl, rfl⟩, ?_⟩
  · simp [round, exec, step, go, take, notify, enter, St.at, St.acquire, St.release, St.emit, h1, h2, List.replicate, W]
    funext u
    by_cases e1 : u = 1
    · simp [e1]
    · by_cases e2 : u = 2 <;> simp [e1, e2]
  · have a1 : (Event.lockRet 1).tid = 1 := rfl
    have a2 : (Event.lockPass 1).tid = 1 := rfl
    have a3 : (Event.unlockDone 1 true).tid = 1 := rfl
    have a4 : (Event.unlockCall 1).tid = 1 := rfl
    simp [overtaken, List.takeWhile_cons, a1, a2, a3, a4, List.countP_cons, Event.isAcq]

theorem starve_ok : ∀ n, ∃ s, exec (init 1) (starve n) = some s ∧ Hungry s ∧ overtaken 2 s.log = n
  | 0 => by
    have hk : (exec (init 1) startUp).map (fun s => (s.mtx, s.count, s.avail, s.pc 1, s.pc 2, overtaken 2 s.log)) =
        some (none, 1, 1, .idle, .waiting, 0) := by decide +kernel
    cases hs : exec (init 1) startUp with
    | none => rw [hs] at hk; cases hk
    | some s =>
      rw [hs] at hk
      simp only [Option.map_some, Option.some.injEq, Prod.mk.injEq] at hk
      exact ⟨s, hs, ⟨hk.1, hk.2.1, hk.2.2.1, hk.2.2.2.1, hk.2.2.2.2.1⟩, hk.2.2.2.2.2⟩
  | n + 1 => by
    obtain ⟨s, h1, h2, h3⟩ := starve_ok n
    obtain ⟨s', h4, h5, h6⟩ := round_ok s h2
    exact ⟨s', by rw [starve, exec_append, h1]; exact h4, h5, by rw [h6, h3]⟩

theorem round_mem : ∀ l ∈ round, (l.1 < 3 ∧ l.2 ≠ .timeout) ∧ l.2 ≠ .notify none := by decide

theorem starve_mem : ∀ n, ∀ l ∈ starve n, (l.1 < 3 ∧ l.2 ≠ .timeout) ∧ l.2 ≠ .notify none
  | 0 => by decide
  | n + 1 => fun l hl => by
    rcases List.mem_append.1 hl with hl | hl
    · exact starve_mem n l hl
    · exact round_mem l hl

/-- **C185, counterexample:** one resource and two threads; whenever thread 1 releases the resource it wakes up thread 2, and
takes the resource back before thread 2 has the mutex.  This can go on for any number of turns. -/
theorem C185_counterexample : ¬ C185_statement := by
  intro h
  obtain ⟨B, hB⟩ := h 1 (by decide) 3
  obtain ⟨s, h1, h2, h3⟩ := starve_ok (B + 1)
  have := hB _ s h1 (along_heard _ _ fun l hl => (starve_mem _ l hl).2) (fun l hl => (starve_mem _ l hl).1) 2 (.inl h2.two)
  omega

/-! ### What holds -/

/-- One for a thread inside `lock` or `try_lock`. -/
def busy : Pc → Nat
  | .lockEnter | .lockCheck | .lockThrow | .lockLoop | .waiting | .woken | .lockLoad | .lockStore _ | .lockRelease
  | .tryEnter | .tryTest | .tryLoad | .tryStore _ | .tryRelease _ => 1
  | _ => 0

theorem acq_cons (e : Event) (l : List Event) (u : Nat) :
    acquired (e :: l) u = acquired l u + if e.isAcq = true ∧ e.tid = u then 1 else 0 := by
  simp only [acquired, List.countP_cons, Bool.and_eq_true, beq_iff_eq]

theorem busy_step {s s' : St} {l : Nat × Act} (h : step s l = some s') (u : Nat) :
    acquired s'.log u + busy (s'.pc u) ≤ acquired s.log u + busy (s.pc u) + requests u [l] := by
  obtain ⟨t, act⟩ := l
  by_cases hu : u = t
  · subst hu
    cases act with
    | go =>
      simp only [step, go] at h
      cases hp : s.pc u <;> rw [hp] at h <;> simp only [reduceCtorEq] at h
      all_goals first
        | (unfold take at h
           by_cases c : s.mtx = none
           · rw [if_pos c] at h; injection h with h; subst h
             simp [St.at, St.acquire, busy, requests]
           · rw [if_neg c] at h; cases h)
        | (injection h with h; subst h
           (try split)
           all_goals simp [St.at, St.release, St.emit, acq_cons, Event.isAcq, Event.tid, busy, requests]; done)
        | (rename_i b
           injection h with h; subst h
           cases b <;> simp [St.at, St.release, St.emit, acq_cons, Event.isAcq, Event.tid, busy, requests])
        | (rename_i _ b
           injection h with h; subst h
           cases b <;> simp [St.at, St.release, St.emit, acq_cons, Event.isAcq, Event.tid, busy, requests])
    | call op =>
      simp only [step] at h
      split at h
      · rename_i hp
        rw [hp]
        cases op <;> simp only [enter] at h
        case setAvail m =>
          split at h
          · injection h with h; subst h; simp [St.at, busy]
          · cases h
        all_goals
          injection h with h; subst h; simp [St.at, St.emit, acq_cons, Event.isAcq, busy, requests]
      · cases h
    | timeout =>
      simp only [step] at h
      split at h
      · rename_i hp
        injection h with h; subst h; simp [St.at, hp, busy]
      · cases h
    | notify v =>
      simp only [step, notify] at h
      split at h
      · rename_i hp
        cases v with
        | none => injection h with h; subst h; simp [St.at, busy]; omega
        | some v =>
          simp only at h
          split at h
          · rename_i hv
            have : u ≠ v := fun e => by subst e; rw [hv] at hp; rcases hp with hp | hp <;> cases hp
            injection h with h; subst h; simp [St.at, this, busy]; omega
          · cases h
      · cases h
  · have hlog : acquired s'.log u = acquired s.log u := by
      have ne : t ≠ u := fun e => hu e.symm
      cases act with
      | go =>
        simp only [step, go] at h
        split at h
        all_goals first
          | (unfold take at h
             by_cases c : s.mtx = none
             · rw [if_pos c] at h; injection h with h; subst h; rfl
             · rw [if_neg c] at h; cases h)
          | cases h; done
          | (injection h with h
             subst h
             (try split)
             all_goals simp [St.at, St.emit, St.release, acq_cons, Event.tid, ne])
      | call op =>
        simp only [step] at h
        split at h
        · cases op <;> simp only [enter] at h
          case setAvail m =>
            split at h
            · injection h with h; subst h; rfl
            · cases h
          all_goals
            injection h with h; subst h; simp [St.at, St.emit, acq_cons, Event.isAcq]
        · cases h
      | timeout =>
        simp only [step] at h
        split at h
        · injection h with h; subst h; rfl
        · cases h
      | notify v =>
        simp only [step, notify] at h
        split at h
        · cases v with
          | none => injection h with h; subst h; rfl
          | some v =>
            simp only at h
            split at h
            · injection h with h; subst h; rfl
            · cases h
        · cases h
    by_cases hn : act = .notify (some u)
    · subst hn
      simp only [step, notify] at h
      split at h
      · split at h
        · rename_i hv
          injection h with h; subst h
          simp [St.at, hv, busy]
        · cases h
      · cases h
    · rw [hlog, step_frame h u hu hn]
      omega

/-- C185, the part that holds: nobody overtakes without asking.  From any state on, a thread is given at most as many resources as
it calls `lock` or `try_lock`, and one more when it is in such a call at the beginning; so a thread in `lock` is overtaken, by every
other thread, at most once plus once for each further call of that thread.  Missing: a bound on these calls. -/
theorem C185_partial (s s' : St) (sched : List (Nat × Act)) (h : exec s sched = some s') (u : Nat) :
    acquired s'.log u ≤ acquired s.log u + busy (s.pc u) + requests u sched := by
  have : ∀ (sched : List (Nat × Act)) (s : St), exec s sched = some s' →
      acquired s'.log u + busy (s'.pc u) ≤ acquired s.log u + busy (s.pc u) + requests u sched := by
    intro sched
    induction sched with
    | nil => intro s h; injection h with h; subst h; exact Nat.le_refl _
    | cons l ls ih =>
      intro s h
      simp only [exec] at h
      cases hst : step s l with
      | none => rw [hst] at h; cases h
      | some s1 =>
        rw [hst] at h
        have h1 := ih s1 h
        have h2 := busy_step hst u
        have h3 : requests u (l :: ls) = requests u [l] + requests u ls := by
          obtain ⟨t, act⟩ := l
          cases act with
          | call op => cases op <;> simp only [requests] <;> omega
          | _ => simp only [requests] <;> omega
        omega
  have := this sched s h
  omega

theorem over_cons {t : Nat} {e : Event} (l : List Event) (h1 : e.tid ≠ t) (h2 : e.isAcq = false) :
    overtaken t (e :: l) = overtaken t l := by
  simp [overtaken, List.takeWhile_cons, h1, List.countP_cons, h2]

/-- **C185, the last check counts:** a thread that has the mutex and has found a free resource is not overtaken any more, whatever
the other threads do; it keeps its place until it has returned from `lock`. -/
theorem C185_served (n : Nat) (hn : n < W) (s s' : St) (h : Reach n s) (t u : Nat) (act : Act) (hu : u ≠ t)
    (ht : s.pc t = .lockLoad ∨ (∃ c, s.pc t = .lockStore c) ∨ s.pc t = .lockRelease) (hs : step s (u, act) = some s') :
    overtaken t s'.log = overtaken t s.log ∧ s'.pc t = s.pc t := by
  obtain ⟨a, hi⟩ := reach_inv hn h
  have hot : Owns (s.pc t) = true := by rcases ht with e | ⟨c, e⟩ | e <;> rw [e] <;> rfl
  have hou : Owns (s.pc u) = false := by
    cases hc : Owns (s.pc u) with
    | false => rfl
    | true =>
      have e1 := (hi.owner t).mp hot
      have e2 := (hi.owner u).mp hc
      rw [e1] at e2
      injection e2 with e2
      exact absurd e2.symm hu
  have hnw : s.pc t ≠ .waiting := by rcases ht with e | ⟨c, e⟩ | e <;> rw [e] <;> simp
  constructor
  · cases act with
    | go =>
      simp only [step, go] at hs
      cases hp : s.pc u <;> rw [hp] at hs hou <;> simp only [reduceCtorEq, Owns, Bool.true_eq_false] at hs hou
      all_goals first
        | (unfold take at hs
           by_cases c : s.mtx = none
           · rw [if_pos c] at hs; injection hs with hs; subst hs; rfl
           · rw [if_neg c] at hs; cases hs)
        | (injection hs with hs; subst hs; exact over_cons _ hu rfl)
    | call op =>
      simp only [step] at hs
      split at hs
      · cases op <;> simp only [enter] at hs
        case setAvail m =>
          split at hs
          · injection hs with hs; subst hs; rfl
          · cases hs
        case unlock => injection hs with hs; subst hs; exact over_cons _ hu rfl
        all_goals
          injection hs with hs; subst hs; rfl
      · cases hs
    | timeout =>
      simp only [step] at hs
      split at hs
      · injection hs with hs; subst hs; rfl
      · cases hs
    | notify v =>
      simp only [step, notify] at hs
      split at hs
      · cases v with
        | none => injection hs with hs; subst hs; rfl
        | some v =>
          simp only at hs
          split at hs
          · injection hs with hs; subst hs; rfl
          · cases hs
      · cases hs
  · refine step_frame hs t (Ne.symm hu) fun e => ?_
    subst e
    simp only [step, notify] at hs
    split at hs
    · simp only [if_neg hnw, reduceCtorEq] at hs
    · cases hs

/-- Three turns: thread 1 has asked, and was given the resource, once more than three times, while thread 2 waits. -/
example : (exec (init 1) (starve 3)).map (fun s => (acquired s.log 1, acquired s.log 2, overtaken 2 s.log)) = some (4, 0, 3) ∧
    requests 1 (starve 3) = 4 ∧ requests 2 (starve 3) = 1 := by decide +kernel

/-- Thread 2 wakes up in time: it has the mutex and sees the free resource while thread 1 calls `lock` again. -/
example : (exec (init 1) (startUp ++ ((1, .call .unlock) :: List.replicate 5 (1, .go)) ++
      [(1, .notify (some 2)), (2, .go), (2, .go), (1, .call .lock)])).map (fun s => (s.pc 1, s.pc 2, overtaken 2 s.log)) =
    some (.lockEnter, .lockLoad, 0) := by decide +kernel

end Verif.Sem
