import Verif.Conc.TimerWake
import Verif.Conc.TimerReenter

/-
C178: callbacks of base_timer_t that throw.

* An exception of `on_start`, `on_interval` or `on_stop` on the timer's thread leaves `run` (timer.h:124-151), which is called by the
  function of a `std::thread` (thread.h:48-51) and catches nothing: `std::terminate`.
* `stop` (timer.h:53-60) calls `on_stop` after it has cleared `_is_running` and before it notifies and joins: an exception
  goes to the caller of `stop`, and the rest is not done.  Called by a destructor (timer.h:37-42, 84-87) it ends the program, because
  destructors are `noexcept`.

The transition system is that of `TimerWake`, with these two actions.
-/

namespace Verif.Timer

structure TSt where
  sig  : Sig
  dead : Bool                  -- `std::terminate` was called

def TSt.init (ms : Nat) : TSt := ⟨(Verif.Timer.init ms, false), false⟩

inductive TAct where
  | base (a : Act)
  | threadThrows                         -- the callback that the thread executes throws
  | stopThrows (t : Nat) (dtor : Bool)   -- `on_stop`, called by `stop`, throws; `dtor`: `stop` was called by a destructor
deriving DecidableEq, Repr

def stepT (x : TSt) (a : TAct) : Option TSt :=
  if x.dead then none
  else
    match a with
    | .base a => (sstep x.sig a).map fun y => ⟨y, false⟩
    | .threadThrows => if x.sig.1.inCallback then some { x with dead := true } else none
    | .stopThrows t dtor =>
      if x.sig.1.cpc t = .stopCallback then some ⟨((x.sig.1.c t .idle).emit (.stopOnStop t), x.sig.2), dtor⟩ else none

def execT (x : TSt) : List TAct → Option TSt
  | [] => some x
  | a :: as => (stepT x a).bind fun x' => execT x' as

def ReachT (ms : Nat) (x : TSt) : Prop := ∃ sched, execT (TSt.init ms) sched = some x

/-- C178 (full statement), first half: no exception of a callback ends the program. -/
def C178_statement : Prop := ∀ ms x, ReachT ms x → x.dead = false

/-- C178 (full statement), second half: a `stop` that is left by an exception of `on_stop` has stopped the timer like one that returns:
the sleeping thread was woken. -/
def C178_wake_statement : Prop :=
  ∀ ms x, ReachT ms x → ∀ t x1, stepT x (.stopThrows t false) = some x1 → x1.sig.1.pc = .waiting → x1.sig.2 = true

/-- The exceptions that end the program. -/
def TAct.fatal : TAct → Bool
  | .threadThrows => true
  | .stopThrows _ d => d
  | .base _ => false

/-! ### Without fatal exceptions -/

/-- An execution of `TimerModel` with the same effect on the timer. -/
def plain : List TAct → List Act
  | [] => []
  | .base a :: as => a :: plain as
  | .threadThrows :: as => plain as
  | .stopThrows t _ :: as => .client t :: .client t :: plain as

theorem stopThrows_plain {s : St} {t : Nat} (h : s.cpc t = .stopCallback) :
    exec s [.client t, .client t] = some ((s.c t .idle).emit (.stopOnStop t)) := by
  have : (s.c t .stopNotify).c t .idle = s.c t .idle := by
    simp only [St.c]
    congr 1
    funext u
    by_cases c : u = t <;> simp [c]
  simp only [exec, step, client, h, Option.bind_some]
  simp only [St.emit, St.c, if_true, Option.bind_some, Option.some.injEq]
  simp only [St.c] at this
  congr 1
  funext u
  by_cases c : u = t <;> simp [c]

theorem execT_plain (sched : List TAct) : ∀ x x' : TSt, x.dead = false → (∀ a ∈ sched, a.fatal = false) →
    execT x sched = some x' → x'.dead = false ∧ exec x.sig.1 (plain sched) = some x'.sig.1 := by
  induction sched with
  | nil => intro x x' hd _ h; injection h with h; subst h; exact ⟨hd, rfl⟩
  | cons a as ih =>
    intro x x' hd hf h
    cases h1 : stepT x a with
    | none => simp [execT, h1] at h
    | some x1 =>
      simp only [execT, h1, Option.bind_some] at h
      have hfa := hf a (by simp)
      have hih := ih x1 x'
      simp only [stepT, hd, Bool.false_eq_true, if_false] at h1
      cases a with
      | base a =>
        simp only [Option.map_eq_some_iff] at h1
        obtain ⟨y, hy, rfl⟩ := h1
        obtain ⟨h2, h3⟩ := hih rfl (fun b hb => hf b (by simp [hb])) h
        exact ⟨h2, by rw [plain, exec_cons (sstep_step hy)]; exact h3⟩
      | threadThrows => cases hfa
      | stopThrows t d =>
        simp only at h1
        split at h1
        · next hc =>
          injection h1 with h1
          subst h1
          obtain ⟨h2, h3⟩ := hih hfa (fun b hb => hf b (by simp [hb])) h
          refine ⟨h2, ?_⟩
          have : plain (.stopThrows t d :: as) = [.client t, .client t] ++ plain as := rfl
          rw [this, exec_append, stopThrows_plain hc, Option.bind_some]
          exact h3
        · cases h1

theorem execT_append (as bs : List TAct) : ∀ x : TSt, execT x (as ++ bs) = (execT x as).bind fun x' => execT x' bs := by
  induction as with
  | nil => intro x; rfl
  | cons a as ih =>
    intro x
    simp only [List.cons_append, execT]
    cases stepT x a with
    | none => rfl
    | some x1 => simp only [Option.bind_some]; exact ih x1

/-- A dead program does nothing. -/
theorem execT_dead (sched : List TAct) (x x' : TSt) (hd : x.dead = true) (h : execT x sched = some x') : sched = [] := by
  cases sched with
  | nil => rfl
  | cons a as => simp [execT, stepT, hd] at h

/-- **C178, partial** (first half). The program is ended exactly by the exceptions that leave the thread or a destructor: while there is
none the program goes on, and everything that `TimerProps` proves of the timer's states holds.
Missing: those exceptions (`C178_counterexample`). -/
theorem C178_partial (ms : Nat) (sched : List TAct) (x : TSt) (h : execT (TSt.init ms) sched = some x) :
    (x.dead = true ↔ ∃ a ∈ sched, a.fatal = true) ∧ (x.dead = false → Reach ms x.sig.1) := by
  have hgood : (∀ a ∈ sched, a.fatal = false) → x.dead = false ∧ Reach ms x.sig.1 := by
    intro hf
    obtain ⟨h1, h2⟩ := execT_plain sched _ x rfl hf h
    exact ⟨h1, _, h2⟩
  have hbad : (∃ a ∈ sched, a.fatal = true) → x.dead = true := by
    rintro ⟨a, ha, hf⟩
    obtain ⟨l1, l2, rfl⟩ := List.append_of_mem ha
    rw [execT_append] at h
    cases h1 : execT (TSt.init ms) l1 with
    | none => rw [h1] at h; cases h
    | some x1 =>
      rw [h1, Option.bind_some] at h
      cases h2 : stepT x1 a with
      | none => simp [execT, h2] at h
      | some x2 =>
        simp only [execT, h2, Option.bind_some] at h
        have hd : x2.dead = true := by
          unfold stepT at h2
          split at h2
          · cases h2
          cases a with
          | base a => cases hf
          | threadThrows =>
            simp only at h2
            split at h2
            · injection h2 with h2; subst h2; rfl
            · cases h2
          | stopThrows t d =>
            simp only at h2
            split at h2
            · injection h2 with h2; subst h2; exact hf
            · cases h2
        have := execT_dead l2 x2 x hd h
        subst this
        injection h with h
        subst h
        exact hd
  have hdec : (∀ a ∈ sched, a.fatal = false) ∨ ∃ a ∈ sched, a.fatal = true := by
    rcases Classical.em (∃ a ∈ sched, a.fatal = true) with c | c
    · exact .inr c
    · refine .inl fun a ha => ?_
      cases hf : a.fatal with
      | false => rfl
      | true => exact absurd ⟨a, ha, hf⟩ c
  refine ⟨⟨fun hd => ?_, hbad⟩, fun hd => ?_⟩
  · rcases hdec with c | c
    · rw [(hgood c).1] at hd; cases hd
    · exact c
  · rcases hdec with c | c
    · exact (hgood c).2
    · rw [hbad c] at hd; cases hd

/-- **C178:** a `stop` that has cleared the flag is in force, even if `on_stop` throws then (or throws in later calls of `stop`):
the flag stays cleared, `on_interval` is called at most once more, and the thread can run to its end by itself. -/
theorem C178_stops (ms : Nat) (x : TSt) (h : ReachT ms x) (hd : x.dead = false) (t : Nat) (hc : x.sig.1.cpc t = .stopStore)
    (hp : x.sig.1.pc.listening = true) : ∃ x1, stepT x (.base (.client t)) = some x1 ∧
    ∀ sched x2, .base .start ∉ sched → (∀ a ∈ sched, a.fatal = false) → execT x1 sched = some x2 →
      x2.sig.1.isRunning = false ∧ intervals x2.sig.1.log ≤ intervals x.sig.1.log + 1 ∧
      ((∀ u, x2.sig.1.mtx ≠ some (.client u)) → ∃ sched' s3, ByThread sched' ∧ sched'.length ≤ 38 ∧
        exec x2.sig.1 sched' = some s3 ∧ s3.pc = .finished) := by
  obtain ⟨sched0, h0⟩ := h
  obtain ⟨s1, e1, e2⟩ := C101_stops_partial ms x.sig.1 ((C178_partial ms sched0 x h0).2 hd) t hc hp
  have hss : ∃ b, sstep x.sig (.client t) = some (s1, b) := by
    simp only [sstep, e1, Option.map_some]
    exact ⟨_, rfl⟩
  obtain ⟨b, hss⟩ := hss
  refine ⟨⟨(s1, b), false⟩, by simp [stepT, hd, hss], fun sched x2 hn hf hx => ?_⟩
  obtain ⟨-, h2⟩ := execT_plain sched _ x2 rfl hf hx
  refine e2 (plain sched) x2.sig.1 ?_ h2
  clear hx h2 hf
  induction sched with
  | nil => simp [plain]
  | cons a as ih =>
    have hna : .base .start ∉ as := fun hm => hn (by simp [hm])
    cases a with
    | base a =>
      simp only [plain, List.mem_cons, not_or]
      exact ⟨fun e => hn (by simp [e]), ih hna⟩
    | threadThrows => exact ih hna
    | stopThrows u d =>
      simp only [plain, List.mem_cons, not_or]
      exact ⟨by simp, by simp, ih hna⟩

/-- **C178, counterexample:** `on_interval` throws. -/
theorem C178_counterexample : ¬ C178_statement := by
  intro h
  have hk : (execT (TSt.init 100) ((.base .start) :: List.replicate 9 (.base .thread) ++ [.base (.tick 100000000), .base .timeout] ++
      List.replicate 4 (.base .thread) ++ [.threadThrows])).map (fun x => (x.sig.1.pc, x.dead)) = some (.inCall, true) := by
    decide +kernel
  cases hs : execT (TSt.init 100) ((.base .start) :: List.replicate 9 (.base .thread) ++ [.base (.tick 100000000), .base .timeout] ++
      List.replicate 4 (.base .thread) ++ [.threadThrows]) with
  | none => rw [hs] at hk; cases hk
  | some x =>
    rw [hs] at hk
    simp only [Option.map_some, Option.some.injEq, Prod.mk.injEq] at hk
    have := h 100 x ⟨_, hs⟩
    rw [hk.2] at this
    cases this

/-- `on_stop` throws in a `stop` that is called by a destructor. -/
example : (execT (TSt.init 100) [.base (.call 7 .delete), .base (.client 7), .base (.client 7), .base (.client 7), .base (.call 7 .stop),
    .base (.client 7), .stopThrows 7 true]).map (·.dead) = some true := by decide +kernel

/-! ### The sleeping thread -/

/-- A timer of one hour sleeps; `stop` is called and `on_stop` throws. -/
def thrownStop : List TAct :=
  (.base .start) :: List.replicate 9 (.base .thread) ++ [.base (.call 7 .stop), .base (.client 7), .stopThrows 7 false]

set_option synthInstance.maxSize 1000 in
/-- **C178, counterexample** (second half): the exception skips the notification; the thread of the stopped timer sleeps on for an hour. -/
theorem C178_counterexample_wake : (∃ x, ReachT 3600000 x ∧ x.dead = false ∧ x.sig.1.isRunning = false ∧ x.sig.1.cpc 7 = .idle ∧
    x.sig.1.pc = .waiting ∧ x.sig.2 = false ∧ x.sig.1.now = 0 ∧ x.sig.1.deadline = 3600000 * K) ∧ ¬ C178_wake_statement := by
  have hk : (execT (TSt.init 3600000) ((.base .start) :: List.replicate 9 (.base .thread) ++
      [.base (.call 7 .stop), .base (.client 7)])).map (fun x => (stepT x (.stopThrows 7 false)).map fun x =>
        (x.dead, x.sig.1.isRunning, x.sig.1.cpc 7, x.sig.1.pc, x.sig.2, x.sig.1.now, x.sig.1.deadline)) =
      some (some (false, false, .idle, .waiting, false, 0, 3600000 * K)) := by decide +kernel
  cases hs : execT (TSt.init 3600000) ((.base .start) :: List.replicate 9 (.base .thread) ++
      [.base (.call 7 .stop), .base (.client 7)]) with
  | none => rw [hs] at hk; cases hk
  | some x =>
    rw [hs] at hk
    simp only [Option.map_some, Option.some.injEq] at hk
    cases h1 : stepT x (.stopThrows 7 false) with
    | none => rw [h1] at hk; cases hk
    | some x1 =>
      rw [h1] at hk
      simp only [Option.map_some, Option.some.injEq, Prod.mk.injEq] at hk
      obtain ⟨k1, k2, k3, k4, k5, k6, k7⟩ := hk
      refine ⟨⟨x1, ⟨(.base .start) :: List.replicate 9 (.base .thread) ++ [.base (.call 7 .stop), .base (.client 7)] ++
        [.stopThrows 7 false], ?_⟩, k1, k2, k3, k4, k5, k6, k7⟩, fun h => ?_⟩
      · rw [execT_append, hs]
        simp [execT, h1]
      · have := h 3600000 x ⟨_, hs⟩ 7 x1 h1 k4
        rw [k5] at this
        cases this

/-- **C178, partial** (second half): the exception changes nothing for the thread: it sleeps on if and only if it slept and had not been
notified before.
Missing: the notification (`C178_counterexample_wake`). -/
theorem C178_wake_partial (x x1 : TSt) (t : Nat) (h : stepT x (.stopThrows t false) = some x1) :
    x1.dead = false ∧ x1.sig.2 = x.sig.2 ∧ x1.sig.1.pc = x.sig.1.pc ∧ x1.sig.1.deadline = x.sig.1.deadline ∧
      x1.sig.1.isRunning = x.sig.1.isRunning ∧ x1.sig.1.cpc t = .idle := by
  unfold stepT at h
  split at h
  · cases h
  simp only at h
  split at h
  · injection h with h; subst h; simp [St.c, St.emit]
  · cases h

/-- **C178:** the way out: to call `stop` once more, if `on_stop` does not throw then. -/
theorem C178_again (x : TSt) (t : Nat) (hd : x.dead = false) (hc : x.sig.1.cpc t = .idle) (hw : x.sig.1.pc = .waiting) :
    ∃ x', execT x [.base (.call t .stop), .base (.client t), .base (.client t), .base (.client t)] = some x' ∧
      x'.dead = false ∧ x'.sig.1.isRunning = false ∧ x'.sig.1.pc = .waiting ∧ x'.sig.2 = true := by
  simp [execT, stepT, hd, sstep, step, hc, entry, client, St.c, St.emit, CPc.notifying, hw]

example : (execT (TSt.init 3600000) (thrownStop ++ [.base (.call 7 .stop), .base (.client 7), .base (.client 7), .base (.client 7),
    .base .wake] ++ List.replicate 8 (.base .thread))).map (fun x => (x.sig.1.pc, intervals x.sig.1.log, x.dead)) =
    some (.finished, 0, false) := by decide +kernel

end Verif.Timer
