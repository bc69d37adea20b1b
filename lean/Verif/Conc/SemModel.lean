import Verif.Common

/-
concurrency/semaphore.h: semaphore_t, as a transition system.

Threads are natural numbers, any number of them.  Every access to the shared members is one step of one thread, so
`_count++` is a load step followed by a store step, and mutual exclusion is a consequence of the modelled mutex, not an
assumption.  A step is written as a partial function of the state and a label; a schedule is any list of labels.

The condition variable: a thread in `wait_for` has released the mutex and is `waiting`.  A `notify_one` makes any one
of the waiting threads `woken` (or none when there is none, or when the notification happens to be lost on a
thread that is about to time out); `Act.timeout` is the end of the timed wait, or a spurious wake-up.  A woken thread
competes for the mutex again.

Simplifications: sequentially consistent memory, the log is ghost state (calls and returns in the order in which they
take effect), `_timeout_ms` and time are not modelled: a timeout can occur at any moment.
-/

namespace Verif.Sem

/-- The operations a thread can call. -/
inductive Op where
  | lock | tryLock | unlock | setAvail (n : Nat) | count | maxCount
  deriving DecidableEq, Repr

/-- Program counter of a thread: the next step it will do, with the local variables. -/
inductive Pc where
  | idle
  /- `lock` (semaphore.h:43-57) -/
  | lockEnter                -- :45  acquire `_mtx`
  | lockCheck                -- :46  read `_available_resources`
  | lockThrow                -- :47-48 release and throw
  | lockLoop                 -- :51  compare `_count` and `_available_resources`
  | waiting                  -- :52  inside `wait_for`, `_mtx` released
  | woken                    -- :52  waking up, acquire `_mtx` again
  | lockLoad                 -- :54  `_count++`, load
  | lockStore (c : Nat)      -- :54  `_count++`, store
  | lockRelease              -- :56  release, return
  /- `try_lock` (semaphore.h:63-71) -/
  | tryEnter                 -- :65
  | tryTest                  -- :67
  | tryLoad                  -- :68
  | tryStore (c : Nat)       -- :68
  | tryRelease (b : Bool)    -- :70
  /- `unlock` (semaphore.h:76-82) and `decrecement` (:126-135) -/
  | unEnter                  -- :128
  | unTest                   -- :130
  | unLoad                   -- :131
  | unStore (c : Nat)        -- :131
  | unRelease (ok : Bool)    -- :134
  | unNotify                 -- :79
  /- `set_available_resources` (semaphore.h:88-94) and `set_max_counter_locked` (:140-146) -/
  | setEnter (n : Nat)       -- :142
  | setTest (n : Nat)        -- :143
  | setStore (n : Nat) (g : Bool)    -- :144
  | setRelease (n : Nat) (g : Bool)  -- :145
  | setNotify                -- :91
  /- `count` (semaphore.h:99-103) -/
  | cntEnter                 -- :101
  | cntRead                  -- :102
  | cntRelease (c : Nat)     -- :102
  /- `max_count` (semaphore.h:108-111): no mutex -/
  | maxRead                  -- :110
  deriving DecidableEq, Repr

/-- What the threads observe. -/
inductive Event where
  | lockPass (t : Nat)               -- `lock` found some resources to wait for
  | lockRet (t : Nat)                -- `lock` returns
  | lockThrow (t : Nat)              -- `lock` throws `out_of_resources_exception`
  | tryRet (t : Nat) (b : Bool)
  | unlockCall (t : Nat)             -- `unlock` is called
  | unlockDone (t : Nat) (eff : Bool)  -- result of `decrecement`
  | setDone (t : Nat) (n : Nat)
  | countRet (t : Nat) (v : Nat)
  | maxRet (t : Nat) (v : Nat)
  deriving DecidableEq, Repr

structure St where
  mtx   : Option Nat      -- owner of `_mtx`
  count : Nat             -- `_count`
  avail : Nat             -- `_available_resources`
  pc    : Nat → Pc
  log   : List Event      -- newest first

/-- Labels: a call by an idle thread, a step of the program, a timeout of the wait; a notification names the thread it
wakes, if any. -/
inductive Act where
  | call (op : Op)
  | go
  | timeout
  | notify (u : Option Nat)
  deriving DecidableEq, Repr

def St.at (s : St) (t : Nat) (p : Pc) : St := { s with pc := fun u => if u = t then p else s.pc u }

def St.acquire (s : St) (t : Nat) : St := { s with mtx := some t }
def St.release (s : St) : St := { s with mtx := none }
def St.emit (s : St) (e : Event) : St := { s with log := e :: s.log }

/-- The constructor (semaphore.h:34-36): no thread is using the semaphore. -/
def init (avail : Nat) : St := { mtx := none, count := 0, avail := avail, pc := fun _ => .idle, log := [] }

/-- Start of an operation. -/
def enter (s : St) (t : Nat) : Op → Option St
  | .lock => some (s.at t .lockEnter)
  | .tryLock => some (s.at t .tryEnter)
  | .unlock => some ((s.at t .unEnter).emit (.unlockCall t))
  | .setAvail n => if n < W then some (s.at t (.setEnter n)) else none    -- the argument is a `size_t`
  | .count => some (s.at t .cntEnter)
  | .maxCount => some (s.at t .maxRead)

/-- Acquire the mutex, when it is free. -/
def take (s : St) (t : Nat) (p : Pc) : Option St :=
  if s.mtx = none then some ((s.at t p).acquire t) else none

/-- One program step of thread `t`. -/
def go (s : St) (t : Nat) : Option St :=
  match s.pc t with
  | .lockEnter => take s t .lockCheck
  | .lockCheck => some (if s.avail = 0 then s.at t .lockThrow else (s.at t .lockLoop).emit (.lockPass t))
  | .lockThrow => some ((s.at t .idle).release.emit (.lockThrow t))
  | .lockLoop => some (if s.count ≥ s.avail then (s.at t .waiting).release else s.at t .lockLoad)
  | .woken => take s t .lockLoop
  | .lockLoad => some (s.at t (.lockStore s.count))
  | .lockStore c => some { s.at t .lockRelease with count := (c + 1) % W }
  | .lockRelease => some ((s.at t .idle).release.emit (.lockRet t))
  | .tryEnter => take s t .tryTest
  | .tryTest => some (if s.count < s.avail then s.at t .tryLoad else s.at t (.tryRelease false))
  | .tryLoad => some (s.at t (.tryStore s.count))
  | .tryStore c => some { s.at t (.tryRelease true) with count := (c + 1) % W }
  | .tryRelease b => some ((s.at t .idle).release.emit (.tryRet t b))
  | .unEnter => take s t .unTest
  | .unTest => some (if s.count ≠ 0 then s.at t .unLoad else s.at t (.unRelease false))
  | .unLoad => some (s.at t (.unStore s.count))
  | .unStore c => some { s.at t (.unRelease true) with count := (c + (W - 1)) % W }
  | .unRelease ok => some ((s.at t (if ok then .unNotify else .idle)).release.emit (.unlockDone t ok))
  | .setEnter n => take s t (.setTest n)
  | .setTest n => some (s.at t (.setStore n (decide (n > s.avail))))
  | .setStore n g => some { s.at t (.setRelease n g) with avail := n }
  | .setRelease n g => some ((s.at t (if g then .setNotify else .idle)).release.emit (.setDone t n))
  | .cntEnter => take s t .cntRead
  | .cntRead => some (s.at t (.cntRelease s.count))
  | .cntRelease c => some ((s.at t .idle).release.emit (.countRet t c))
  | .maxRead => some ((s.at t .idle).emit (.maxRet t s.avail))
  | .idle | .waiting | .unNotify | .setNotify => none

/-- `_cv.notify_one()`: wakes the chosen waiting thread. -/
def notify (s : St) (t : Nat) (u : Option Nat) : Option St :=
  if s.pc t = .unNotify ∨ s.pc t = .setNotify then
    match u with
    | none => some (s.at t .idle)
    | some u => if s.pc u = .waiting then some ((s.at t .idle).at u .woken) else none
  else none

/-- One step. -/
def step (s : St) : Nat × Act → Option St
  | (t, .call op) => if s.pc t = .idle then enter s t op else none
  | (t, .go) => go s t
  | (t, .timeout) => if s.pc t = .waiting then some (s.at t .woken) else none
  | (t, .notify u) => notify s t u

/-- A schedule. -/
def exec (s : St) : List (Nat × Act) → Option St
  | [] => some s
  | l :: ls => (step s l).bind fun s' => exec s' ls

/-- States reachable from a new semaphore with `avail` resources. -/
def Reach (avail : Nat) (s : St) : Prop := ∃ sched, exec (init avail) sched = some s

/-! ### Memory accesses, for the data race analysis -/

inductive Loc where
  | count | avail
  deriving DecidableEq, Repr

/-- Accesses (location, is a write) of the next step of a thread at `p`. -/
def Pc.accesses : Pc → List (Loc × Bool)
  | .lockCheck => [(.avail, false)]
  | .lockLoop | .tryTest => [(.count, false), (.avail, false)]
  | .lockLoad | .tryLoad | .unLoad | .unTest | .cntRead => [(.count, false)]
  | .lockStore _ | .tryStore _ | .unStore _ => [(.count, true)]
  | .setTest _ => [(.avail, false)]
  | .setStore _ _ => [(.avail, true)]
  | .maxRead => [(.avail, false)]
  | _ => []

/-- Two different threads are about to access the same member, one of them writing. -/
def Race (s : St) (t u : Nat) : Prop :=
  t ≠ u ∧ ∃ l w w', (l, w) ∈ (s.pc t).accesses ∧ (l, w') ∈ (s.pc u).accesses ∧ (w = true ∨ w' = true)

end Verif.Sem
