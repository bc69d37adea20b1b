import Verif.Conc.Thread

/-
`thread_t` when threads cannot be created and when `run` throws (AdvancedLibraryCpp/concurrency/thread.h:31-119), and C162.

The system of `Verif/Conc/Thread.lean` with two more actions:

* `fails`: the constructor of `std::thread` in `start` throws (`std::system_error`, or `std::bad_alloc`).  The new
  `std::thread` is made before it is assigned, so `_t` is as before; `_exit_code` has been written already.
* `throws`: an exception leaves `run`, and with it the function of the thread: `std::terminate`.
-/

namespace Verif.ThreadThrow
open Verif.Thread (St OPc TPc NOT_FINISHED NOT_STARTED exitCode isRunning)

inductive Act
  | base (a : Thread.Act)
  | fails
  | throws
deriving DecidableEq, Repr

structure TSt where
  st   : St
  dead : Bool      -- `std::terminate` has been called by the thread

def init : TSt := ⟨Thread.init, false⟩

/-- thread.h:48-51; `none` is an action that is not possible. -/
def step (s : TSt) : Act → Option TSt
  | .base a => if s.dead then none else (Thread.step s.st a).map fun t => ⟨t, false⟩
  | .fails => if ¬ s.dead ∧ s.st.opc = .spawn then some { s with st := { s.st with opc := .idle } } else none
  | .throws => if ¬ s.dead ∧ s.st.tpc = .running then some { s with dead := true } else none

def exec (s : TSt) : List Act → Option TSt
  | [] => some s
  | a :: as => (step s a).bind fun s' => exec s' as

def Reach (s : TSt) : Prop := ∃ sched, exec init sched = some s

theorem exec_append (s : TSt) (as bs : List Act) : exec s (as ++ bs) = (exec s as).bind fun s' => exec s' bs := by
  induction as generalizing s with
  | nil => rfl
  | cons a as ih => simp only [List.cons_append, exec, ih]; cases step s a <;> rfl

/-! ### C162 -/

/-- The actions of the thread and of observers, which the owner does not take part in. -/
def Other : Act → Prop
  | .base .thread | .base (.ret _) | .base .readCode | .base .readRunning => True
  | _ => False

/-- The thread stores its result, thread.h:50. -/
def Stores (s : TSt) : List Act → Prop
  | [] => False
  | a :: as => (a = .base .thread ∧ ∃ v, s.st.tpc = .store v) ∨ ∃ s', step s a = some s' ∧ Stores s' as

/-- C162, what one would want: after a `start` that throws, the exit code is what it would be without the call, whatever the
thread (of an earlier start) and observers do meanwhile. -/
def C162_statement : Prop := ∀ (s s1 s2 : TSt) (as : List Act), Reach s → (∀ a ∈ as, Other a) →
  exec s as = some s1 → exec s ((.base .start :: as) ++ [.fails]) = some s2 → exitCode s2.st = exitCode s1.st

/-- The same objects, except for exit code and history. -/
def Alike (s t : TSt) : Prop :=
  s.dead = t.dead ∧ s.st.joinable = t.st.joinable ∧ s.st.derived = t.st.derived ∧ s.st.tpc = t.st.tpc

theorem other_step {s t s' : TSt} {a : Act} (ho : Other a) (hal : Alike s t) (hi : s.st.opc = .idle) (hsp : t.st.opc = .spawn)
    (hs : step s a = some s') : ∃ t', step t a = some t' ∧ Alike s' t' ∧ s'.st.opc = .idle ∧ t'.st.opc = .spawn ∧
      (s.st.code = t.st.code → s'.st.code = t'.st.code) ∧
      ((a = .base .thread ∧ ∃ v, s.st.tpc = .store v) → s'.st.code = t'.st.code) ∧
      (¬ (a = .base .thread ∧ ∃ v, s.st.tpc = .store v) → s'.st.code = s.st.code ∧ t'.st.code = t.st.code) := by
  obtain ⟨⟨code, joinable, derived, tpc, opc, log⟩, dead⟩ := s
  obtain ⟨⟨code', joinable', derived', tpc', opc', log'⟩, dead'⟩ := t
  simp only [Alike] at hal
  obtain ⟨rfl, rfl, rfl, rfl⟩ := hal
  simp only at hi hsp
  subst hi hsp
  cases dead with
  | true => cases a with
    | base a => simp [step] at hs
    | fails => simp [step] at hs
    | throws => simp [step] at hs
  | false =>
    cases a with
    | fails => exact ho.elim
    | throws => exact ho.elim
    | base a =>
      cases a with
      | thread =>
        cases tpc with
        | spawned =>
          cases derived <;> simp [step, Thread.step, Thread.St.emit] at hs ⊢ <;> subst hs <;> simp [Alike]
        | store v => simp [step, Thread.step] at hs ⊢; subst hs; simp [Alike]
        | none => simp [step, Thread.step] at hs
        | running => simp [step, Thread.step] at hs
        | over => simp [step, Thread.step] at hs
        | pureVirtual => simp [step, Thread.step] at hs
      | ret v =>
        by_cases h : tpc = .running
        · subst h; simp [step, Thread.step, Thread.St.emit] at hs ⊢; subst hs; simp [Alike]
        · simp [step, Thread.step, h] at hs
      | readCode => simp [step, Thread.step, Thread.St.emit] at hs ⊢; subst hs; simp [Alike]
      | readRunning => simp [step, Thread.step, Thread.St.emit] at hs ⊢; subst hs; simp [Alike]
      | start => exact ho.elim
      | spawn => exact ho.elim
      | join => exact ho.elim
      | dtor => exact ho.elim
      | wait => exact ho.elim

theorem others_exec (as : List Act) : ∀ {s t s1 : TSt}, (∀ a ∈ as, Other a) → Alike s t → s.st.opc = .idle → t.st.opc = .spawn →
    exec s as = some s1 → ∃ t1, exec t as = some t1 ∧ Alike s1 t1 ∧ s1.st.opc = .idle ∧ t1.st.opc = .spawn ∧
      (s.st.code = t.st.code → s1.st.code = t1.st.code) ∧ (Stores s as → s1.st.code = t1.st.code) ∧
      (¬ Stores s as → s1.st.code = s.st.code ∧ t1.st.code = t.st.code) := by
  induction as with
  | nil =>
    intro s t s1 _ hal hi hsp hs
    injection hs with hs
    subst hs
    exact ⟨t, rfl, hal, hi, hsp, id, fun h => h.elim, fun _ => ⟨rfl, rfl⟩⟩
  | cons a as ih =>
    intro s t s1 ho hal hi hsp hs
    cases h1 : step s a with
    | none => simp [exec, h1] at hs
    | some s' =>
      simp only [exec, h1, Option.bind_some] at hs
      obtain ⟨t', e1, hal', hi', hsp', c1, c2, c3⟩ := other_step (ho a List.mem_cons_self) hal hi hsp h1
      obtain ⟨t1, e2, hal1, hi1, hsp1, d1, d2, d3⟩ := ih (fun b hb => ho b (List.mem_cons_of_mem _ hb)) hal' hi' hsp' hs
      refine ⟨t1, by simp only [exec, e1, Option.bind_some]; exact e2, hal1, hi1, hsp1, fun h => d1 (c1 h), ?_, ?_⟩
      · rintro (h | ⟨s'', h, h'⟩)
        · exact d1 (c2 h)
        · rw [h1] at h; cases h; exact d2 h'
      · intro h
        have n1 : ¬ (a = .base .thread ∧ ∃ v, s.st.tpc = .store v) := fun h' => h (.inl h')
        have n2 : ¬ Stores s' as := fun h' => h (.inr ⟨s', h1, h'⟩)
        exact ⟨(d3 n2).1.trans (c3 n1).1, (d3 n2).2.trans (c3 n1).2⟩

/-- C162, the part that holds: a `start` that throws leaves everything as it would be without the call, except the exit code: this is
NOT_FINISHED, unless the thread of an earlier start stores its result during the call. Missing: the exit code. -/
theorem C162_failed_partial (s s1 : TSt) (as : List Act) (ho : ∀ a ∈ as, Other a) (hd : s.dead = false) (hi : s.st.opc = .idle)
    (h1 : exec s as = some s1) :
    ∃ s2, exec s ((.base .start :: as) ++ [.fails]) = some s2 ∧ Alike s1 s2 ∧ s1.st.opc = .idle ∧ s2.st.opc = .idle ∧
      (Stores s as → exitCode s2.st = exitCode s1.st) ∧ (¬ Stores s as → exitCode s2.st = NOT_FINISHED ∧ isRunning s2.st = true) := by
  have e0 : step s (.base .start) = some ⟨{ s.st with code := NOT_FINISHED, opc := .spawn }.emit .started, false⟩ := by
    simp [step, hd, Thread.step, hi]
  obtain ⟨t1, e1, hal, hi1, hsp, -, c2, c3⟩ := others_exec as (t := ⟨{ s.st with code := NOT_FINISHED, opc := .spawn }.emit .started, false⟩)
    ho ⟨hd, rfl, rfl, rfl⟩ hi rfl h1
  have hd1 : t1.dead = false := by
    have : ∀ (as : List Act) (s s1 : TSt), (∀ a ∈ as, Other a) → s.dead = false → exec s as = some s1 → s1.dead = false := by
      intro as
      induction as with
      | nil => intro s s1 _ h e; injection e with e; subst e; exact h
      | cons a as ih =>
        intro s s1 ho h e
        cases h2 : step s a with
        | none => simp [exec, h2] at e
        | some s' =>
          simp only [exec, h2, Option.bind_some] at e
          refine ih s' s1 (fun b hb => ho b (List.mem_cons_of_mem _ hb)) ?_ e
          have := ho a List.mem_cons_self
          cases a with
          | base a =>
            simp only [step, h, Bool.false_eq_true, if_false] at h2
            cases h3 : Thread.step s.st a with
            | none => simp [h3] at h2
            | some t => simp [h3] at h2; subst h2; rfl
          | fails => exact this.elim
          | throws => exact this.elim
    exact this as _ t1 ho rfl e1
  refine ⟨⟨{ t1.st with opc := .idle }, t1.dead⟩, ?_, hal, hi1, rfl, fun h => (c2 h).symm, fun h => ?_⟩
  · rw [exec_append]
    simp only [exec, e0, Option.bind_some, e1]
    simp [step, hd1, hsp]
  · have : t1.st.code = NOT_FINISHED := (c3 h).2
    exact ⟨this, by simp [isRunning, this]⟩

example : (exec init [.base .start, .base .readCode, .fails, .base .readRunning, .base .join, .base .dtor]).map
    (fun s => (s.st.log, s.st.opc, exitCode s.st)) =
    some ([.sawRunning true, .sawCode (-100), .started], .gone, -100) := by decide +kernel

/-- C162 fails: after a first `start` that throws, the exit code is NOT_FINISHED instead of NOT_STARTED. -/
theorem C162_not : ¬ C162_statement := fun h => by
  have := h init init ⟨{ Thread.init with code := NOT_FINISHED, log := [.started] }, false⟩ [] ⟨[], rfl⟩ (by simp) rfl rfl
  simp [exitCode, init, Thread.init, NOT_FINISHED, NOT_STARTED] at this

/-- C162 fails: a thread has returned 7 and was joined; another `start` throws; the 7 is lost. -/
theorem C162_counterexample_lost :
    (exec init [.base .start, .base .spawn, .base .thread, .base (.ret 7), .base .thread, .base .join, .base .wait, .base .readCode,
      .base .start, .fails, .base .readCode, .base .readRunning]).map (fun s => s.st.log.take 2) =
    some [.sawRunning true, .sawCode (-100)] := by decide +kernel

/-- C162, waiting for a thread that could not be started: as long as nobody calls `start` again, `is_running` answers true, whatever
happens; so does `is_running` of a message queue, which is at least that of its thread (message_queue.h:105-108), so a loop that
waits for the end does not end. -/
theorem C162_forever (s : TSt) (hc : s.st.code = NOT_FINISHED) (hj : s.st.joinable = false)
    (ht : s.st.tpc = .none ∨ s.st.tpc = .over) (ho : s.st.opc = .idle ∨ s.st.opc = .gone) (sched : List Act) (s' : TSt)
    (hn : .base .start ∉ sched) (hs : exec s sched = some s') :
    isRunning s'.st = true ∧ exitCode s'.st = NOT_FINISHED := by
  suffices h : ∀ (sched : List Act) (s s' : TSt), (s.st.code = NOT_FINISHED ∧ s.st.joinable = false ∧
      (s.st.tpc = .none ∨ s.st.tpc = .over) ∧ (s.st.opc = .idle ∨ s.st.opc = .gone)) → .base .start ∉ sched →
      exec s sched = some s' → s'.st.code = NOT_FINISHED by
    have := h sched s s' ⟨hc, hj, ht, ho⟩ hn hs
    exact ⟨by simp [isRunning, this], this⟩
  intro sched
  induction sched with
  | nil => intro s s' h _ e; injection e with e; subst e; exact h.1
  | cons a as ih =>
    intro s s' ⟨g1, g2, g3, g4⟩ hn e
    cases h2 : step s a with
    | none => simp [exec, h2] at e
    | some s1 =>
      simp only [exec, h2, Option.bind_some] at e
      refine ih s1 s' ?_ (fun h => hn (List.mem_cons_of_mem _ h)) e
      have hna : a ≠ .base .start := fun h => hn (h ▸ List.mem_cons_self)
      obtain ⟨⟨code, joinable, derived, tpc, opc, log⟩, dead⟩ := s
      simp only at g1 g2 g3 g4
      subst g1 g2
      cases a with
      | fails => rcases g4 with rfl | rfl <;> simp [step] at h2
      | throws => rcases g3 with rfl | rfl <;> simp [step] at h2
      | base a =>
        cases dead with
        | true => simp [step] at h2
        | false =>
          cases a <;> rcases g3 with rfl | rfl <;> rcases g4 with rfl | rfl <;>
            simp [step, Thread.step, Thread.St.emit] at h2 hna <;> (try subst h2) <;> simp

example : ∃ s, exec init [.base .start, .fails] = some s ∧ s.st.code = NOT_FINISHED ∧ s.st.joinable = false ∧ s.st.tpc = .none ∧
    s.st.opc = .idle := ⟨_, rfl, rfl, rfl, rfl, rfl⟩

/-- timer.h:65-68: a timer combines its own flag, which only `run` sets, with the thread's. -/
def timerIsRunning (flag : Bool) (s : St) : Bool := flag && isRunning s

/-- message_queue.h:105-108 -/
def queueIsRunning (flag : Bool) (s : St) : Bool := flag || isRunning s

/-- C162 in derived classes: with its own flag false, as before the first `run` and after every one, a timer that could not be
started is not running, but a message queue is said to run. -/
theorem C162_derived (s : St) (h : exitCode s = NOT_FINISHED) : timerIsRunning false s = false ∧ queueIsRunning false s = true := by
  simp only [exitCode] at h
  simp [timerIsRunning, queueIsRunning, isRunning, h]

example : timerIsRunning false { Thread.init with code := NOT_FINISHED } = false ∧
    queueIsRunning false { Thread.init with code := NOT_FINISHED } = true := by decide

/-- C162, starting again: after any number of failed starts, if a start succeeds, the thread's `run` returns `v` and the thread is
joined, then the exit code is `v`. -/
theorem C162_retry (s : TSt) (hd : s.dead = false) (hi : s.st.opc = .idle) (hj : s.st.joinable = false) (hv : s.st.derived = true)
    (n : Nat) (v : Int) :
    ∃ s', exec s ((List.replicate n [.base .start, .fails]).flatten ++
      [.base .start, .base .spawn, .base .thread, .base (.ret v), .base .thread, .base .join, .base .wait]) = some s' ∧
      exitCode s'.st = v ∧ s'.st.joinable = false ∧ s'.st.opc = .idle := by
  induction n generalizing s with
  | zero =>
    obtain ⟨⟨code, joinable, derived, tpc, opc, log⟩, dead⟩ := s
    simp only at hd hi hj hv
    subst hd hi hj hv
    simp [exec, step, Thread.step, Thread.St.emit, exitCode]
  | succ n ih =>
    obtain ⟨⟨code, joinable, derived, tpc, opc, log⟩, dead⟩ := s
    simp only at hd hi hj hv
    subst hd hi hj hv
    obtain ⟨s', e, h⟩ := ih ⟨⟨NOT_FINISHED, false, true, tpc, .idle, .started :: log⟩, false⟩ rfl rfl rfl rfl
    refine ⟨s', ?_, h⟩
    rw [← e]
    simp [List.replicate_succ, exec, step, Thread.step, Thread.St.emit]

example : (exec init [.base .start, .fails, .base .start, .base .spawn, .base .thread, .base (.ret 7), .base .thread, .base .join,
    .base .wait, .base .readCode]).map (fun s => s.st.log.take 1) = some [.sawCode 7] := by decide +kernel

/-- C162, exceptions of `run`: the program is terminated; nobody can catch the exception, and nothing happens after it. -/
theorem C162_run_throws (s s' : TSt) (h : step s .throws = some s') : s'.dead = true ∧ ∀ a, step s' a = none := by
  simp only [step] at h
  split at h
  · injection h with h
    subst h
    refine ⟨rfl, fun a => ?_⟩
    cases a <;> simp [step]
  · cases h

example : ((exec init [.base .start, .base .spawn, .base .thread, .throws]).map (·.dead)) = some true := by decide +kernel

/-- C162, nothing else changes: a history without failures is one of `Verif/Conc/Thread.lean`, to which C100, C111 and C112 apply. -/
theorem C162_same (sched : List Thread.Act) (s : TSt) (hd : s.dead = false) :
    exec s (sched.map .base) = (Thread.exec s.st sched).map fun t => ⟨t, false⟩ := by
  induction sched generalizing s with
  | nil => obtain ⟨st, dead⟩ := s; simp only at hd; subst hd; rfl
  | cons a as ih =>
    simp only [List.map_cons, exec, step, hd, Bool.false_eq_true, if_false, Thread.exec]
    cases h : Thread.step s.st a with
    | none => rfl
    | some t =>
      simp only [Option.map_some, Option.bind_some]
      exact ih ⟨t, false⟩ rfl

end Verif.ThreadThrow
