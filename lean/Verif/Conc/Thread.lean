import Mathlib.Tactic.ByContra

/-
`thread_t`, AdvancedLibraryCpp/concurrency/thread.h:31-119, and C100, C111, C112.

A transition system of the owner, who calls `start`, `join` and the destructor one after the other, the thread it starts,
and observers, who call `exit_code` and `is_running` at any moment.

* `run` is the user's: it returns any value after any time.
* Destroying the object first destroys the derived class (`dtor`); from then on `run` is pure virtual, and calling it ends
  the program.
* Assigning to a joinable `std::thread` calls `std::terminate`.
* `log`, newest first, is a ghost.
-/

namespace Verif.Thread

/-- thread.h:117-118 -/
def NOT_FINISHED : Int := -100
def NOT_STARTED : Int := -101

inductive Event
  | started             -- `start` has been called
  | runBegins           -- `run` is entered
  | runEnds (v : Int)   -- `run` has returned `v`
  | joined              -- `join`, or the one in the destructor, has returned after waiting for the thread
  | sawCode (n : Int)   -- some thread called `exit_code`
  | sawRunning (b : Bool)
deriving DecidableEq, Repr

/-- The started thread, thread.h:50. -/
inductive TPc
  | none
  | spawned
  | running
  | store (v : Int)     -- `run` has returned, `_exit_code` is still to be written
  | over
  | pureVirtual         -- `run` called on a destroyed object
deriving DecidableEq, Repr

/-- The owner. -/
inductive OPc
  | idle
  | spawn               -- 50
  | join                -- 68-70
  | dtor                -- the derived class is destroyed, 36-40 follow
  | gone
  | terminated          -- `std::terminate`
deriving DecidableEq, Repr

structure St where
  code     : Int
  joinable : Bool
  derived  : Bool       -- the derived class exists
  tpc      : TPc
  opc      : OPc
  log      : List Event

/-- thread.h:114-115 -/
def init : St := { code := NOT_STARTED, joinable := false, derived := true, tpc := .none, opc := .idle, log := [] }

inductive Act
  | start | spawn       -- 48-50, the store and the creation
  | join | dtor         -- 67-71, 35-40
  | wait                -- the waiting inside
  | thread
  | ret (v : Int)       -- `run` returns `v`
  | readCode | readRunning   -- 88-100
deriving DecidableEq, Repr

def St.emit (s : St) (e : Event) : St := { s with log := e :: s.log }

def exitCode (s : St) : Int := s.code
def isRunning (s : St) : Bool := s.code == NOT_FINISHED

def step (s : St) : Act → Option St
  | .start => if s.opc = .idle then some ({ s with code := NOT_FINISHED, opc := .spawn }.emit .started) else none
  | .spawn =>
    if s.opc = .spawn then
      some (if s.joinable then { s with opc := .terminated } else { s with opc := .idle, joinable := true, tpc := .spawned })
    else none
  | .join => if s.opc = .idle then some (if s.joinable then { s with opc := .join } else s) else none
  | .dtor =>
    if s.opc = .idle then
      some (if s.joinable then { s with opc := .dtor, derived := false } else { s with opc := .gone, derived := false })
    else none
  | .wait =>
    if s.tpc = .over then
      match s.opc with
      | .join => some ({ s with opc := .idle, joinable := false }.emit .joined)
      | .dtor => some ({ s with opc := .gone, joinable := false }.emit .joined)
      | _ => none
    else none
  | .thread =>
    match s.tpc with
    | .spawned => some (if s.derived then { s with tpc := .running }.emit .runBegins else { s with tpc := .pureVirtual })
    | .store v => some { s with tpc := .over, code := v }
    | _ => none
  | .ret v => if s.tpc = .running then some ({ s with tpc := .store v }.emit (.runEnds v)) else none
  | .readCode => if s.opc = .gone then none else some (s.emit (.sawCode (exitCode s)))
  | .readRunning => if s.opc = .gone then none else some (s.emit (.sawRunning (isRunning s)))

def exec (s : St) : List Act → Option St
  | [] => some s
  | a :: as => (step s a).bind fun s' => exec s' as

def Reach (s : St) : Prop := ∃ sched, exec init sched = some s

theorem reach_ind {P : St → Prop} (h0 : P init) (hstep : ∀ s a s', P s → step s a = some s' → P s') {s : St}
    (h : Reach s) : P s := by
  obtain ⟨sched, hs⟩ := h
  have : ∀ (sched : List Act) (s s' : St), P s → exec s sched = some s' → P s' := by
    intro sched
    induction sched with
    | nil => intro s s' hp hs; injection hs with hs; subst hs; exact hp
    | cons a as ih =>
      intro s s' hp hs
      cases h1 : step s a with
      | none => simp [exec, h1] at hs
      | some s1 =>
        simp only [exec, h1, Option.bind_some] at hs
        exact ih s1 s' (hstep s a s1 hp h1) hs
  exact this sched _ _ h0 hs

/-! ### C100 -/

/-- The life of the thread as the user knows it. -/
inductive Phase
  | fresh                 -- never started
  | starting              -- started, `run` not yet entered
  | executing             -- inside `run`
  | returned (v : Int)    -- `run` has returned, the thread not yet joined
  | joined (v : Int)      -- joined
  | misused               -- started again without joining
deriving DecidableEq, Repr

def phase : List Event → Phase
  | [] => .fresh
  | .started :: l =>
    match phase l with
    | .fresh | .joined _ => .starting
    | _ => .misused
  | .runBegins :: l => if phase l = .starting then .executing else .misused
  | .runEnds v :: l => if phase l = .executing then .returned v else .misused
  | .joined :: l => match phase l with | .returned v => .joined v | _ => .misused
  | .sawCode _ :: l | .sawRunning _ :: l => phase l

/-- What `exit_code` may return in each phase. Right after the return of `run` the code may not have been written yet; after
the thread was joined it has. -/
def CodeOk : Phase → Int → Prop
  | .fresh, n => n = NOT_STARTED
  | .starting, n | .executing, n => n = NOT_FINISHED
  | .returned v, n => n = NOT_FINISHED ∨ n = v
  | .joined v, n => n = v
  | .misused, _ => True

/-- What `is_running` may return: true from `start` to the end of `run`, false before and after; the value NOT_FINISHED
itself must not be returned by `run`. -/
def RunningOk : Phase → Bool → Prop
  | .fresh, b => b = false
  | .starting, b | .executing, b => b = true
  | .returned _, _ => True
  | .joined v, b => v ≠ NOT_FINISHED → b = false
  | .misused, _ => True

/-- Every value observed in the past was right at its time. -/
def ObservedOk : List Event → Prop
  | [] => True
  | .sawCode n :: l => CodeOk (phase l) n ∧ ObservedOk l
  | .sawRunning b :: l => RunningOk (phase l) b ∧ ObservedOk l
  | _ :: l => ObservedOk l

/-- Phase, thread, handle and code fit together. -/
def Fits (s : St) : Prop :=
  match phase s.log with
  | .fresh => s.code = NOT_STARTED ∧ s.joinable = false ∧ s.tpc = .none ∧ (s.opc = .idle ∨ s.opc = .gone)
  | .starting => s.code = NOT_FINISHED ∧
      ((s.opc = .spawn ∧ s.joinable = false ∧ (s.tpc = .none ∨ s.tpc = .over)) ∨
        (s.joinable = true ∧ s.opc ≠ .spawn ∧ s.opc ≠ .gone ∧ (s.tpc = .spawned ∨ s.tpc = .pureVirtual)))
  | .executing => s.code = NOT_FINISHED ∧ s.joinable = true ∧ s.opc ≠ .spawn ∧ s.opc ≠ .gone ∧ s.tpc = .running
  | .returned v => s.joinable = true ∧ s.opc ≠ .spawn ∧ s.opc ≠ .gone ∧
      ((s.tpc = .store v ∧ s.code = NOT_FINISHED) ∨ (s.tpc = .over ∧ s.code = v))
  | .joined v => s.joinable = false ∧ s.tpc = .over ∧ s.code = v ∧ (s.opc = .idle ∨ s.opc = .gone)
  | .misused => True

theorem codeOk_of_fits {s : St} (h : Fits s) : CodeOk (phase s.log) s.code := by
  unfold Fits at h
  cases hp : phase s.log <;> rw [hp] at h <;> simp only [CodeOk]
  · exact h.1
  · exact h.1
  · exact h.1
  · rcases h.2.2.2 with h | h
    · exact .inl h.2
    · exact .inr h.2
  · exact h.2.2.1

theorem runningOk_of_fits {s : St} (h : Fits s) : RunningOk (phase s.log) (isRunning s) := by
  have hc := codeOk_of_fits h
  cases hp : phase s.log <;> rw [hp] at hc <;> simp only [CodeOk, RunningOk, isRunning] at hc ⊢
  · rw [hc]; rfl
  · rw [hc]; rfl
  · rw [hc]; rfl
  · intro hv; rw [hc]; simpa using hv

theorem fits_step {s s' : St} {a : Act} (h : Fits s) (hs : step s a = some s') : Fits s' := by
  unfold Fits at h ⊢
  obtain ⟨code, joinable, derived, tpc, opc, log⟩ := s
  cases a <;> simp only [step] at hs
  case thread =>
    split at hs
    · injection hs with hs
      split at hs <;> subst hs <;> simp only [St.emit, phase] at h ⊢ <;>
        cases hp : phase log <;> rw [hp] at h <;> simp_all
    · injection hs with hs; subst hs
      simp only at h ⊢
      cases hp : phase log <;> rw [hp] at h <;> simp_all
    · cases hs
  case wait =>
    split at hs
    · split at hs
      · injection hs with hs; subst hs
        simp only [St.emit, phase] at h ⊢
        cases hp : phase log <;> rw [hp] at h <;> simp_all
      · injection hs with hs; subst hs
        simp only [St.emit, phase] at h ⊢
        cases hp : phase log <;> rw [hp] at h <;> simp_all
      · cases hs
    · cases hs
  all_goals
    split at hs
    · first
      | (cases hs; done)
      | (injection hs with hs
         first
         | (split at hs <;> subst hs <;> simp only [St.emit, phase] at h ⊢ <;>
             cases hp : phase log <;> rw [hp] at h <;> simp_all; done)
         | (subst hs
            simp only [St.emit, phase] at h ⊢
            cases hp : phase log <;> rw [hp] at h <;> simp_all; done))
    · first
      | (cases hs; done)
      | (injection hs with hs
         subst hs
         simp only [St.emit, phase] at h ⊢
         cases hp : phase log <;> rw [hp] at h <;> simp_all)

/-- C100: the exit code and `is_running`, whenever and by whomever they are read, are right for the phase the thread is in
(for a thread that is not started again before it is joined). -/
theorem C100_observed (s : St) (h : Reach s) : ObservedOk s.log ∧ CodeOk (phase s.log) (exitCode s) ∧
    RunningOk (phase s.log) (isRunning s) := by
  have key : Fits s ∧ ObservedOk s.log := by
    refine reach_ind (P := fun s => Fits s ∧ ObservedOk s.log) ⟨⟨rfl, rfl, rfl, .inl rfl⟩, trivial⟩ ?_ h
    intro s a s' ⟨hf, ho⟩ hs
    refine ⟨fits_step hf hs, ?_⟩
    cases a <;> simp only [step] at hs
    case readCode =>
      split at hs
      · cases hs
      · injection hs with hs; subst hs; exact ⟨codeOk_of_fits hf, ho⟩
    case readRunning =>
      split at hs
      · cases hs
      · injection hs with hs; subst hs; exact ⟨runningOk_of_fits hf, ho⟩
    case thread =>
      split at hs
      · injection hs with hs; split at hs <;> subst hs <;> exact ho
      · injection hs with hs; subst hs; exact ho
      · cases hs
    case wait =>
      split at hs
      · split at hs
        · injection hs with hs; subst hs; exact ho
        · injection hs with hs; subst hs; exact ho
        · cases hs
      · cases hs
    all_goals
      split at hs
      · injection hs with hs
        first
        | (subst hs; exact ho)
        | (split at hs <;> subst hs <;> exact ho)
      · cases hs
  exact ⟨key.2, codeOk_of_fits key.1, runningOk_of_fits key.1⟩

/-- C100: `join` and the destructor return only after `run` has returned and its result has been stored. -/
theorem C100_join_waits (s s' : St) (h : Reach s) (hs : step s .wait = some s') (hm : phase s.log ≠ .misused) :
    ∃ v, phase s.log = .returned v ∧ phase s'.log = .joined v ∧ exitCode s' = v := by
  have hf : Fits s := reach_ind (P := Fits) ⟨rfl, rfl, rfl, .inl rfl⟩ (fun _ _ _ => fits_step) h
  have hf' := fits_step hf hs
  simp only [step] at hs
  split at hs
  · rename_i ht
    have hph : (s.opc = .join ∨ s.opc = .dtor) → ∃ v, phase s.log = .returned v ∧ s.code = v := by
      intro ho
      unfold Fits at hf
      cases hp : phase s.log <;> rw [hp] at hf <;> rcases ho with ho | ho <;> simp_all
    split at hs
    · rename_i ho
      obtain ⟨v, h1, h2⟩ := hph (.inl ho)
      injection hs with hs; subst hs
      exact ⟨v, h1, by simp [St.emit, phase, h1], h2⟩
    · rename_i ho
      obtain ⟨v, h1, h2⟩ := hph (.inr ho)
      injection hs with hs; subst hs
      exact ⟨v, h1, by simp [St.emit, phase, h1], h2⟩
    · cases hs
  · cases hs

/-- Two runs of the same object, the first returning 7, the second 0. -/
example : (exec init [.readCode, .start, .readRunning, .spawn, .thread, .readCode, .ret 7, .thread, .readCode, .join, .wait,
    .start, .spawn, .readCode, .thread, .ret 0, .thread, .dtor, .wait]).map (fun s => (s.log, s.opc)) =
    some ([.joined, .runEnds 0, .runBegins, .sawCode (-100), .started, .joined, .sawCode 7, .runEnds 7, .sawCode (-100),
      .runBegins, .sawRunning true, .started, .sawCode (-101)], .gone) := by decide +kernel

/-- Why the value NOT_FINISHED is excluded: a thread whose `run` returned it seems to run for ever. -/
example : (exec init [.start, .spawn, .thread, .ret (-100), .thread, .join, .wait, .readRunning]).map
    (fun s => (phase s.log, isRunning s)) = some (.joined (-100), true) := by decide +kernel

/-! ### C111 -/

/-- The full claim of C111: no sequence of `start`, `join` and destruction kills the program. -/
def C111_statement : Prop := ∀ s, Reach s → s.opc ≠ .terminated ∧ s.tpc ≠ .pureVirtual

/-- C111 fails: starting again a thread that has finished, but was not joined, calls `std::terminate`. -/
theorem C111_counterexample : ¬ C111_statement := by
  intro h
  have hk : (exec init [.start, .spawn, .thread, .ret 0, .thread, .start, .spawn]).map (fun s => s.opc) =
      some .terminated := by decide +kernel
  cases hs : exec init [.start, .spawn, .thread, .ret 0, .thread, .start, .spawn] with
  | none => rw [hs] at hk; cases hk
  | some s =>
    rw [hs] at hk
    exact (h s ⟨_, hs⟩).1 (by simpa using hk)

/-- C111 fails: a started object may be destroyed before the new thread reaches `run`; `~thread_t` joins too late. -/
theorem C111_counterexample_destroy : ∃ s, Reach s ∧ s.tpc = .pureVirtual := by
  have hk : (exec init [.start, .spawn, .dtor, .thread]).map (fun s => s.tpc) = some .pureVirtual := by decide +kernel
  cases hs : exec init [.start, .spawn, .dtor, .thread] with
  | none => rw [hs] at hk; cases hk
  | some s => rw [hs] at hk; exact ⟨s, ⟨_, hs⟩, by simpa using hk⟩

/-- The owner joins before starting again and before destroying. -/
def Careful (s : St) : Act → Prop
  | .start | .dtor => phase s.log = .fresh ∨ ∃ v, phase s.log = .joined v
  | _ => True

theorem careful_joinable {s : St} {a : Act} (h : Reach s) (hc : Careful s a) (ha : a = .start ∨ a = .dtor) :
    s.joinable = false := by
  have hf : Fits s := reach_ind (P := Fits) (by simp [Fits, init, phase]) (fun _ _ _ => fits_step) h
  have hp : phase s.log = .fresh ∨ ∃ v, phase s.log = .joined v := by
    rcases ha with rfl | rfl <;> exact hc
  unfold Fits at hf
  rcases hp with hp | ⟨v, hp⟩ <;> rw [hp] at hf
  · exact hf.2.1
  · exact hf.1

/-- C111, the part that holds: an owner who joins before starting again and before destroying is safe. Missing: any
other order. -/
theorem C111_careful_partial (sched : List Act) (s : St) (hs : exec init sched = some s)
    (hc : ∀ as a bs s1, sched = as ++ a :: bs → exec init as = some s1 → Careful s1 a) :
    s.opc ≠ .terminated ∧ s.tpc ≠ .pureVirtual := by
  have key : ∀ (sched : List Act) (s0 s : St),
      (s0.opc ≠ .terminated ∧ s0.tpc ≠ .pureVirtual ∧ (s0.opc = .spawn → s0.joinable = false) ∧
        (s0.derived = false → s0.joinable = false ∧ s0.opc = .gone) ∧ (s0.tpc = .spawned → s0.joinable = true)) →
      exec s0 sched = some s → (∀ as a bs s1, sched = as ++ a :: bs → exec s0 as = some s1 → a = .start ∨ a = .dtor →
        s1.joinable = false) →
      s.opc ≠ .terminated ∧ s.tpc ≠ .pureVirtual := by
    intro sched
    induction sched with
    | nil => intro s0 s h hs _; injection hs with hs; subst hs; exact ⟨h.1, h.2.1⟩
    | cons a as ih =>
      intro s0 s h hs hc
      cases h1 : step s0 a with
      | none => simp [exec, h1] at hs
      | some s1 =>
        have ha : a = .start ∨ a = .dtor → s0.joinable = false := hc [] a as s0 rfl rfl
        simp only [exec, h1, Option.bind_some] at hs
        refine ih s1 s ?_ hs ?_
        · obtain ⟨code, joinable, derived, tpc, opc, log⟩ := s0
          obtain ⟨g1, g2, g3, g4, g5⟩ := h
          cases a <;> simp only [step] at h1 ha
          case thread =>
            split at h1
            · injection h1 with h1
              split at h1 <;> subst h1 <;> simp_all [St.emit]
            · injection h1 with h1; subst h1; simp_all [St.emit]
            · cases h1
          case wait =>
            split at h1
            · split at h1
              · injection h1 with h1; subst h1; simp_all [St.emit]
              · injection h1 with h1; subst h1; simp_all [St.emit]
              · cases h1
            · cases h1
          all_goals
            split at h1
            · first
              | (cases h1; done)
              | (injection h1 with h1
                 first
                 | (split at h1 <;> subst h1 <;> simp_all [St.emit]; done)
                 | (subst h1; simp_all [St.emit]; done))
            · first
              | (cases h1; done)
              | (injection h1 with h1; subst h1; simp_all [St.emit])
        · intro as' b bs s2 e1 e2
          exact hc (a :: as') b bs s2 (by rw [e1]; rfl) (by simp only [exec, h1, Option.bind_some]; exact e2)
  exact key sched init s (by simp [init]) hs fun as a bs s1 e1 e2 => careful_joinable ⟨as, e2⟩ (hc as a bs s1 e1 e2)

/-! ### C112 -/

/-- The full claim of C112: nobody reads `_exit_code`, a plain `int`, while the thread is about to write it. An observer may
call `exit_code` in every state in which the object exists. -/
def Race (s : St) : Prop := (∃ v, s.tpc = .store v) ∧ ∃ s', step s .readCode = some s'
def C112_statement : Prop := ∀ s, Reach s → ¬ Race s

/-- C112 fails for every observer that does not join first. -/
theorem C112_counterexample : ¬ C112_statement := by
  intro h
  have hk : (exec init [.start, .spawn, .thread, .ret 0]).map (fun s => (s.tpc, s.opc)) = some (.store 0, .idle) := by
    decide +kernel
  cases hs : exec init [.start, .spawn, .thread, .ret 0] with
  | none => rw [hs] at hk; cases hk
  | some s =>
    rw [hs] at hk
    simp only [Option.map_some, Option.some.injEq, Prod.mk.injEq] at hk
    exact h s ⟨_, hs⟩ ⟨⟨0, hk.1⟩, s.emit (.sawCode (exitCode s)),
      by simp only [step, hk.2, reduceCtorEq, if_false]⟩

/-- C112, the part that holds: before `start` and after `join` there is no race. Missing: the time in between. -/
theorem C112_joined_partial (s : St) (h : Reach s) (hp : phase s.log = .fresh ∨ ∃ v, phase s.log = .joined v) : ¬ Race s := by
  have hf : Fits s := reach_ind (P := Fits) ⟨rfl, rfl, rfl, .inl rfl⟩ (fun _ _ _ => fits_step) h
  rintro ⟨⟨v, hv⟩, _⟩
  unfold Fits at hf
  rcases hp with hp | ⟨w, hp⟩ <;> rw [hp] at hf <;> simp_all

end Verif.Thread
