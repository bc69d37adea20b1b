/-
`base_timer_t` and `timer_t`, AdvancedLibraryCpp/concurrency/timer.h:26-190, with the clock of
AdvancedLibraryCpp/tools/timestamp.h:15-50.

A transition system: the timer thread executes `run` (124-151), any number of client threads call `stop` (53-60),
`notify` (116-119) and `set_interval` (74-76). Every load and store of an atomic member is a step of its own.

* Time is counted in nanoseconds on two clocks: `now`, the clock of the condition variable, which only moves forward,
  and `wall`, the `std::chrono::high_resolution_clock` of `timestamp_t`, which may also be adjusted (it is the system
  clock in libstdc++).
* `wait_for` reports a timeout only when its deadline has passed. It may return without a timeout at any moment (a
  notification or a spurious wake-up), so notifications need not be recorded.
* `on_start`, `on_stop` and `on_interval` are the user's; `on_interval` takes any time and returns any value.
* Durations are unbounded integers. `_mtx` is never used. The destructor (37-42) sets `_deleted`, then calls `stop` and `join`;
  here `delete` models its first half.
* `log`, newest first, and `stampAt` are ghosts.
-/

namespace Verif.Timer

/-- Nanoseconds in a millisecond. -/
def K : Int := 1000000

inductive Event
  | begun (at_ : Int)             -- `run` has set `_is_running` and starts the clock
  | onStart                       -- `on_start`, from the thread
  | interval (at_ : Int)          -- `on_interval` is called
  | returned (v : Int) (at_ : Int)-- `on_interval` has returned `v`
  | onStop                        -- `on_stop`, from the thread
  | exited (v : Int)              -- `run` has returned `v`
  | entered                       -- `run` has been entered
  | stopStored (t : Nat)          -- `stop` has cleared `_is_running`
  | stopOnStop (t : Nat)          -- `on_stop`, from `stop`
  | marked (t : Nat)              -- the destructor has set `_deleted`
  | notified (t : Nat)            -- `notify` has set `_forced_awaken`
deriving DecidableEq, Repr

/-- The timer thread, timer.h:124-167. -/
inductive Pc
  | idle
  | enter                         -- 126-127
  | startLock | startBody | startUnlock   -- 154-159
  | setRunning                    -- 130
  | stamp                         -- 131
  | loopTest                      -- 132
  | lock                          -- 133
  | wait                          -- 134
  | waiting                       -- 134, asleep
  | relock (tmo : Bool)           -- 134, woken up
  | testRunning (tmo : Bool)      -- 135
  | testForced (tmo : Bool)       -- 136
  | call                          -- 137
  | inCall                        -- 137, inside
  | clearForced                   -- 138
  | loadRunning                   -- 139, the load
  | storeRunning (b : Bool)       -- 139, the store
  | setRem                        -- 140
  | adjRem                        -- 143-144
  | reset                         -- 146
  | unlock                        -- 148
  | stopLock | stopBody | stopUnlock      -- 162-167
  | finish                        -- 150
  | finished
deriving DecidableEq, Repr

/-- The clients. -/
inductive CPc
  | idle
  | stopStore | stopCallback | stopNotify   -- 54-56
  | forcedStore | forcedNotify              -- 117-118
  | intervalStore (ms : Nat)                -- 75
  | deleteLock | deleteStore | deleteUnlock -- 38-40
deriving DecidableEq, Repr

inductive Owner
  | thread
  | client (t : Nat)
deriving DecidableEq, Repr

structure St where
  isRunning : Bool
  forced    : Bool
  deleted   : Bool
  interval  : Int
  mtx       : Option Owner        -- `_deletion_mtx`
  rem       : Int                 -- `remaing_time`
  code      : Int                 -- `return_value`
  stamp     : Int                 -- `timestamp`, on the wall clock
  deadline  : Int
  now       : Int
  wall      : Int
  pc        : Pc
  cpc       : Nat → CPc
  log       : List Event
  stampAt   : Int                 -- `now` when `timestamp` was set

def init (ms : Nat) : St :=
  { isRunning := false, forced := false, deleted := false, interval := ms, mtx := none, rem := 0, code := 0, stamp := 0,
    deadline := 0, now := 0, wall := 0, pc := .idle, cpc := fun _ => .idle, log := [], stampAt := 0 }

def St.goto (s : St) (p : Pc) : St := { s with pc := p }
def St.emit (s : St) (e : Event) : St := { s with log := e :: s.log }
def St.c (s : St) (t : Nat) (p : CPc) : St := { s with cpc := fun u => if u = t then p else s.cpc u }

/-- One step of the timer thread, where it does not depend on the environment. -/
def thread (s : St) : Option St :=
  match s.pc with
  | .enter => some ({ s.goto .startLock with code := 0, rem := s.interval }.emit .entered)
  | .startLock => if s.mtx = none then some { s.goto .startBody with mtx := some .thread } else none
  | .startBody => some (if s.deleted then s.goto .startUnlock else (s.goto .startUnlock).emit .onStart)
  | .startUnlock => some { s.goto .setRunning with mtx := none }
  | .setRunning => some { s.goto .stamp with isRunning := true }
  | .stamp => some ({ s.goto .loopTest with stamp := s.wall, stampAt := s.now }.emit (.begun s.now))
  | .loopTest => some (s.goto (if s.isRunning then .lock else .stopLock))
  | .lock => if s.mtx = none then some { s.goto .wait with mtx := some .thread } else none
  | .wait => some { s.goto .waiting with mtx := none, deadline := s.now + s.rem * K }
  | .relock tmo => if s.mtx = none then some { s.goto (.testRunning tmo) with mtx := some .thread } else none
  | .testRunning tmo => some (s.goto (if s.isRunning then .testForced tmo else .unlock))
  | .testForced tmo => some (s.goto (if tmo || s.forced then .call else .adjRem))
  | .call => some ((s.goto .inCall).emit (.interval s.now))
  | .clearForced => some { s.goto .loadRunning with forced := false }
  | .loadRunning => some (s.goto (.storeRunning (s.isRunning && s.code == 0)))
  | .storeRunning b => some { s.goto .setRem with isRunning := b }
  | .setRem => some { s.goto .reset with rem := s.interval }
  | .adjRem =>
    -- `duration_cast` truncates towards zero
    some { s.goto .reset with rem := min s.interval (s.rem - (s.wall - s.stamp).tdiv K) }
  | .reset => some { s.goto .unlock with stamp := s.wall, stampAt := s.now }
  | .unlock => some { s.goto .loopTest with mtx := none }
  | .stopLock => if s.mtx = none then some { s.goto .stopBody with mtx := some .thread } else none
  | .stopBody => some (if s.deleted then s.goto .stopUnlock else (s.goto .stopUnlock).emit .onStop)
  | .stopUnlock => some { s.goto .finish with mtx := none }
  | .finish => some ((s.goto .finished).emit (.exited s.code))
  | .idle | .waiting | .inCall | .finished => none

inductive Op
  | stop | notify | setInterval (ms : Nat) | delete
deriving DecidableEq, Repr

/-- One step of the client `t`. -/
def client (s : St) (t : Nat) : Option St :=
  match s.cpc t with
  | .idle => none
  | .stopStore => some ({ s.c t .stopCallback with isRunning := false }.emit (.stopStored t))
  | .stopCallback => some ((s.c t .stopNotify).emit (.stopOnStop t))
  | .stopNotify => some (s.c t .idle)
  | .forcedStore => some ({ s.c t .forcedNotify with forced := true }.emit (.notified t))
  | .forcedNotify => some (s.c t .idle)
  | .intervalStore ms => some { s.c t .idle with interval := ms }
  | .deleteLock => if s.mtx = none then some { s.c t .deleteStore with mtx := some (.client t) } else none
  | .deleteStore => some ({ s.c t .deleteUnlock with deleted := true }.emit (.marked t))
  | .deleteUnlock => some { s.c t .idle with mtx := none }

inductive Act
  | start                         -- `thread_t::start`
  | thread
  | ret (v : Int)                 -- `on_interval` returns `v`
  | timeout | wake                -- the end of `wait_for`
  | tick (d : Nat)                -- time passes
  | adjust (d : Int)              -- the wall clock is set
  | call (t : Nat) (op : Op)
  | client (t : Nat)
deriving DecidableEq, Repr

def entry : Op → CPc
  | .stop => .stopStore
  | .notify => .forcedStore
  | .setInterval ms => .intervalStore ms
  | .delete => .deleteLock

def step (s : St) : Act → Option St
  | .start => if s.pc = .idle ∨ s.pc = .finished then some (s.goto .enter) else none
  | .thread => thread s
  | .ret v => if s.pc = .inCall then some ({ s.goto .clearForced with code := v }.emit (.returned v s.now)) else none
  | .timeout => if s.pc = .waiting ∧ s.deadline ≤ s.now then some (s.goto (.relock true)) else none
  | .wake => if s.pc = .waiting then some (s.goto (.relock false)) else none
  | .tick d => some { s with now := s.now + d, wall := s.wall + d }
  | .adjust d => some { s with wall := s.wall + d }
  | .call t op => if s.cpc t = .idle then some (s.c t (entry op)) else none
  | .client t => client s t

def exec (s : St) : List Act → Option St
  | [] => some s
  | a :: as => (step s a).bind fun s' => exec s' as

def Reach (ms : Nat) (s : St) : Prop := ∃ sched, exec (init ms) sched = some s

/-- `timer_t::on_interval`, timer.h:185-189; EXIT_SUCCESS is 0 and EXIT_FAILURE is 1. -/
def timerOnInterval (callback : Bool) : Int := if callback then 0 else 1

/-- The only members that are neither atomic nor guarded: `_interval_ms`; reads (`false`) and writes (`true`). -/
def Pc.accesses : Pc → List Bool
  | .enter | .setRem | .adjRem => [false]
  | _ => []

def CPc.accesses : CPc → List Bool
  | .intervalStore _ => [true]
  | _ => []

/-- The timer thread and a client are about to access `_interval_ms`, one of them writing. -/
def Race (s : St) (t : Nat) : Prop := ∃ w w', w ∈ s.pc.accesses ∧ w' ∈ (s.cpc t).accesses ∧ (w = true ∨ w' = true)

end Verif.Timer
