import Verif.Common

/-
concurrency/message_queue.h: message_queue_t, as a transition system.

One worker thread executes `run`; any number of client threads (natural numbers) call `receive_message`, `stop`,
`discard_messages`, `size`, `empty`, `is_running`.  Every access to a shared member is one step.  A schedule is
any list of labels.

The container (`std::queue` or `std::priority_queue`) is the list of its messages in order of insertion together with
the function `pick` that says which message `front`/`top` and `pop` take (message_queue.h:209-216): `pickFront` for a
queue; for a heap any function satisfying `HeapPick`, i.e. the standard library's guarantee for `std::priority_queue`.

Simplifications: sequentially consistent memory (data races are analysed separately by `accesses`); callbacks do not
throw and do not call into the queue from the worker thread; `send` (message_queue.h:64-67) is `receive_message`.
The log is ghost state.
-/

namespace Verif.MsgQueue

variable {α : Type}

/-- Which message leaves the container, and what remains. -/
abbrev Pick (α : Type) := List α → Option (α × List α)

/-- `std::queue`: the oldest. -/
def pickFront : Pick α
  | [] => none
  | m :: q => some (m, q)

/-- Any container: takes some element out of a non-empty list of messages. -/
structure GoodPick (pick : Pick α) : Prop where
  empty : pick [] = none
  some  : ∀ q, q ≠ [] → ∃ m q', pick q = Option.some (m, q') ∧ q.Perm (m :: q')

/-- `std::priority_queue` with comparison `lt`: the element taken is not less than any other. -/
structure HeapPick (lt : α → α → Prop) (pick : Pick α) : Prop extends GoodPick pick where
  greatest : ∀ q m q', pick q = Option.some (m, q') → ∀ x ∈ q, ¬ lt m x

inductive Event (α : Type) where
  | pushed (t : Nat) (m : α)       -- inserted into the container
  | stopCall (t : Nat)             -- `_stopped = true`
  | discardCall (t : Nat)          -- `_discard = true`
  | started                        -- `on_start()` called
  | sawEmpty                       -- the emptiness test of the inner loop found no message
  | taken (m : α) (q : List α)     -- `m` was taken out of the container, which held `q`
  | processed (m : α)              -- `on_new_message(m)` called
  | discarded (m : α)              -- dropped by `clear()`
  | stopped                        -- `on_stop()` called
  | sizeRet (t : Nat) (n : Nat)
  | emptyRet (t : Nat) (b : Bool)
  | runningRet (t : Nat) (b : Bool)
  | threw (t : Nat)                -- `run()` entered while running: `std::runtime_error`
  deriving DecidableEq, Repr

/-- The worker: next step of `run` (message_queue.h:130-162). -/
inductive WPc (α : Type) where
  | notStarted
  | checkRunning               -- :135 `if (_running)`
  | throwing                   -- :136
  | onStart                    -- :139
  | setRunning                 -- :140
  | loopTest                   -- :141 `while (_running)`
  | waitPred                   -- :143 predicate of `wait_for`, without the queue's mutex
  | sleeping                   -- :143
  | testDiscard                -- :145
  | clearFlag                  -- :146
  | clearEnter                 -- :149
  | clearLoop                  -- :150, `clear` :225-227
  | clearRelease               -- :151
  | innerPred                  -- :153 `pred()`, without the queue's mutex
  | innerDiscard               -- :153 `!_discard`
  | popEnter                   -- :154, `pop` :208
  | popTake                    -- :210 or :214
  | popRelease (m : α)         -- :211 or :215
  | handle (m : α)             -- :155
  | readStopped                -- :158
  | onStop                     -- :160
  | finished                   -- :161
  | threw
  | ub
  deriving DecidableEq, Repr

/-- A client thread. -/
inductive CPc (α : Type) where
  | idle
  | pushEnter (m : α)          -- :76 acquire
  | pushBody (m : α)           -- :77
  | pushRelease                -- :78
  | notify                     -- :79, :89, :98
  | stopSet                    -- :88
  | discardSet                 -- :97
  | sizeEnter | sizeRead | sizeRelease (n : Nat)       -- :115-116
  | emptyEnter | emptyRead | emptyRelease (b : Bool)   -- :124-125
  | runningRead                -- :107, the part `_running`
  deriving DecidableEq, Repr

inductive Owner where
  | worker | client (t : Nat)
  deriving DecidableEq, Repr

structure St (α : Type) where
  mtx     : Option Owner       -- owner of the mutex of `_queue`
  queue   : List α
  running : Bool
  stopped : Bool
  discard : Bool
  wpc     : WPc α
  cpc     : Nat → CPc α
  log     : List (Event α)     -- newest first

inductive Op (α : Type) where
  | receive (m : α) | stop | discard | size | empty | isRunning
  deriving DecidableEq, Repr

inductive Act (α : Type) where
  | start                              -- the owner calls `start()`, again after `join()`: `run` begins
  | worker                             -- a step of the worker
  | wake                               -- the sleeping worker is notified, or wakes up spuriously
  | timeout                            -- the 100 ms are over
  | call (t : Nat) (op : Op α)
  | client (t : Nat)                   -- a step of a client
  deriving DecidableEq, Repr

def St.w (s : St α) (p : WPc α) : St α := { s with wpc := p }
def St.c (s : St α) (t : Nat) (p : CPc α) : St α := { s with cpc := fun u => if u = t then p else s.cpc u }
def St.emit (s : St α) (e : Event α) : St α := { s with log := e :: s.log }

/-- A new message queue (message_queue.h:229-233). -/
def init : St α :=
  { mtx := none, queue := [], running := false, stopped := false, discard := false, wpc := .notStarted,
    cpc := fun _ => .idle, log := [] }

/-- One step of the worker. -/
def worker (pick : Pick α) (s : St α) : Option (St α) :=
  match s.wpc with
  | .checkRunning => some (if s.running then s.w .throwing else s.w .onStart)
  | .throwing => some (s.w .threw)
  | .onStart => some ((s.w .setRunning).emit .started)
  | .setRunning => some { s.w .loopTest with running := true }
  | .loopTest => some (if s.running then s.w .waitPred else s.w .onStop)
  | .waitPred => some (if s.queue.isEmpty then s.w .sleeping else s.w .testDiscard)
  | .testDiscard => some (if s.discard then s.w .clearFlag else s.w .innerPred)
  | .clearFlag => some { s.w .clearEnter with discard := false }
  | .clearEnter => if s.mtx = none then some { s.w .clearLoop with mtx := some .worker } else none
  | .clearLoop =>
    if s.queue.isEmpty then some (s.w .clearRelease)
    else
      match pick s.queue with
      | some (m, q) => some ({ s with queue := q }.emit (.discarded m))
      | none => some (s.w .ub)
  | .clearRelease => some { s.w .readStopped with mtx := none }
  | .innerPred => some (if s.queue.isEmpty then (s.w .readStopped).emit .sawEmpty else s.w .innerDiscard)
  | .innerDiscard => some (if s.discard then s.w .readStopped else s.w .popEnter)
  | .popEnter => if s.mtx = none then some { s.w .popTake with mtx := some .worker } else none
  | .popTake =>
    match pick s.queue with
    | some (m, q) => some ({ s.w (.popRelease m) with queue := q }.emit (.taken m s.queue))
    | none => some (s.w .ub)                       -- `front`/`top` of an empty container
  | .popRelease m => some { s.w (.handle m) with mtx := none }
  | .handle m => some ((s.w .innerPred).emit (.processed m))
  | .readStopped => some { s.w .loopTest with running := !s.stopped }
  | .onStop => some ((s.w .finished).emit .stopped)
  | .notStarted | .sleeping | .finished | .threw | .ub => none

/-- One step of client `t`. -/
def client (s : St α) (t : Nat) : Option (St α) :=
  match s.cpc t with
  | .idle => none
  | .pushEnter m => if s.mtx = none then some { s.c t (.pushBody m) with mtx := some (.client t) } else none
  | .pushBody m => some ({ s.c t .pushRelease with queue := s.queue ++ [m] }.emit (.pushed t m))
  | .pushRelease => some { s.c t .notify with mtx := none }
  | .notify => some (s.c t .idle)                  -- waking the worker is `Act.wake`, possible at any time
  | .stopSet => some ({ s.c t .notify with stopped := true }.emit (.stopCall t))
  | .discardSet => some ({ s.c t .notify with discard := true }.emit (.discardCall t))
  | .sizeEnter => if s.mtx = none then some { s.c t .sizeRead with mtx := some (.client t) } else none
  | .sizeRead => some (s.c t (.sizeRelease s.queue.length))
  | .sizeRelease n => some ({ s.c t .idle with mtx := none }.emit (.sizeRet t n))
  | .emptyEnter => if s.mtx = none then some { s.c t .emptyRead with mtx := some (.client t) } else none
  | .emptyRead => some (s.c t (.emptyRelease s.queue.isEmpty))
  | .emptyRelease b => some ({ s.c t .idle with mtx := none }.emit (.emptyRet t b))
  | .runningRead => some ((s.c t .idle).emit (.runningRet t s.running))

/-- Start of an operation of an idle client. -/
def enter (s : St α) (t : Nat) : Op α → St α
  | .receive m => s.c t (.pushEnter m)
  | .stop => s.c t .stopSet
  | .discard => s.c t .discardSet
  | .size => s.c t .sizeEnter
  | .empty => s.c t .emptyEnter
  | .isRunning => s.c t .runningRead

/-- One step. -/
def step (pick : Pick α) (s : St α) : Act α → Option (St α)
  | .start => match s.wpc with | .notStarted | .finished => some (s.w .checkRunning) | _ => none
  | .worker => worker pick s
  | .wake => match s.wpc with | .sleeping => some (s.w .waitPred) | _ => none
  | .timeout => match s.wpc with | .sleeping => some (s.w .testDiscard) | _ => none
  | .call t op => match s.cpc t with | .idle => some (enter s t op) | _ => none
  | .client t => client s t

/-- A schedule. -/
def exec (pick : Pick α) (s : St α) : List (Act α) → Option (St α)
  | [] => some s
  | l :: ls => (step pick s l).bind fun s' => exec pick s' ls

/-- Reachable states of a queue with one worker. -/
def Reach (pick : Pick α) (s : St α) : Prop := ∃ sched, exec pick init sched = some s

/-! ### Memory accesses that are not atomic, for the data race analysis -/

inductive Loc where
  | queue | running
  deriving DecidableEq, Repr

def WPc.accesses : WPc α → List (Loc × Bool)
  | .waitPred | .innerPred => [(.queue, false)]
  | .clearLoop | .popTake => [(.queue, true)]
  | .checkRunning | .loopTest => [(.running, false)]
  | .setRunning | .readStopped => [(.running, true)]
  | _ => []

def CPc.accesses : CPc α → List (Loc × Bool)
  | .pushBody _ => [(.queue, true)]
  | .sizeRead | .emptyRead => [(.queue, false)]
  | .runningRead => [(.running, false)]
  | _ => []

/-- The worker and a client are about to access the same member, one of them writing. -/
def WorkerRace (s : St α) (t : Nat) : Prop :=
  ∃ l w w', (l, w) ∈ s.wpc.accesses ∧ (l, w') ∈ (s.cpc t).accesses ∧ (w = true ∨ w' = true)

/-- Two clients are. -/
def ClientRace (s : St α) (t u : Nat) : Prop :=
  t ≠ u ∧ ∃ l w w', (l, w) ∈ (s.cpc t).accesses ∧ (l, w') ∈ (s.cpc u).accesses ∧ (w = true ∨ w' = true)

/-! ### `pointer_comparison` (message_queue.h:243-262) -/

/-- Compares what two non-null pointers point to; `heap` is the memory. -/
def pointerComparison {P T : Type} (heap : P → T) (transform : T → T → Bool) (p1 p2 : P) : Bool :=
  transform (heap p1) (heap p2)

end Verif.MsgQueue
