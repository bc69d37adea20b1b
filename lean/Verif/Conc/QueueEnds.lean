import Verif.Conc.QueueProps

/-!
C179: `stop` ends the worker of a message queue, message_queue.h:130-162.

Once `_stopped` is set (:88), the worker leaves `run` after a number of its own steps that is bounded by the messages, the spurious
wake-ups and the new starts still to come, whatever the other threads do; it is never stuck, except behind a client that holds the mutex
and can always give it back. C109 and C110 exactly, from this.
-/

namespace Verif.MsgQueue

variable {α : Type}

/-- Steps of the worker to the end of `run`, once `_stopped` is set, apart from the messages in the container. -/
def St.toEnd (s : St α) : Nat :=
  match s.wpc with
  | .checkRunning => 15 | .onStart => 14 | .setRunning => 13
  | .loopTest => if s.running then 12 else 2
  | .waitPred => 11 | .sleeping => 10 | .testDiscard => 9
  | .clearFlag => 7 | .clearEnter => 6 | .clearLoop => 5 | .clearRelease => 4
  | .popRelease _ => 10 | .handle _ => 9
  | .innerPred => 8 | .innerDiscard => 7 | .popEnter => 6 | .popTake => 5
  | .readStopped => 3 | .onStop => 1 | .throwing => 1
  | .notStarted | .finished | .threw | .ub => 0

/-- The steps of the worker in a schedule, and what can give it more to do. -/
def works (sched : List (Act α)) : Nat := sched.countP fun a => match a with | .worker | .timeout => true | _ => false
def wakes (sched : List (Act α)) : Nat := sched.countP fun a => match a with | .wake => true | _ => false
def starts (sched : List (Act α)) : Nat := sched.countP fun a => match a with | .start => true | _ => false

def St.work (s : St α) : Nat := s.toEnd + 8 * s.queue.length

theorem pick_shorter {pick : Pick α} (hp : GoodPick pick) {q q' : List α} {m : α} (h : pick q = some (m, q')) :
    q.length = q'.length + 1 := by
  have hne : q ≠ [] := by intro e; rw [e, hp.empty] at h; cases h
  obtain ⟨m1, q1, h1, h2⟩ := hp.some q hne
  rw [h1] at h
  injection h with h; injection h with e1 e2; subst e1; subst e2
  have := h2.length_eq
  simpa using this

/-- A step of the worker brings it nearer to its end. -/
theorem work_worker {pick : Pick α} (hp : GoodPick pick) {s s' : St α} (hst : s.stopped = true) (h : worker pick s = some s') :
    s'.work + 1 ≤ s.work ∧ s'.stopped = true ∧ received s'.log = received s.log := by
  unfold worker at h
  cases hw : s.wpc <;> rw [hw] at h <;> simp only [reduceCtorEq] at h
  case clearLoop =>
    split at h
    · injection h with h; subst h
      simp [St.work, St.toEnd, St.w, hw, hst]; omega
    · split at h
      · rename_i m q hq
        have := pick_shorter hp hq
        injection h with h; subst h
        simp [St.work, St.toEnd, St.emit, hw, hst, received]
        omega
      · injection h with h; subst h
        simp [St.work, St.toEnd, St.w, hw, hst]; omega
  case popTake =>
    split at h
    · rename_i m q hq
      have := pick_shorter hp hq
      injection h with h; subst h
      simp [St.work, St.toEnd, St.emit, St.w, hw, hst, received]
      omega
    · injection h with h; subst h
      simp [St.work, St.toEnd, St.w, hw, hst]; omega
  all_goals
    first
    | (injection h with h; split at h <;> subst h <;> simp_all [St.work, St.toEnd, St.emit, St.w, received] <;> omega)
    | (injection h with h; subst h; simp_all [St.work, St.toEnd, St.emit, St.w, received]; done)
    | (injection h with h; subst h; simp_all [St.work, St.toEnd, St.emit, St.w, received]; omega)
    | (split at h
       · injection h with h; subst h; simp_all [St.work, St.toEnd, St.emit, St.w, received] <;> omega
       · cases h)

/-- A step of a client gives it at most the message inserted. -/
theorem work_client {s s' : St α} {t : Nat} (hst : s.stopped = true) (h : client s t = some s') :
    s'.work + 8 * (received s.log).length = s.work + 8 * (received s'.log).length ∧ s'.stopped = true := by
  unfold client at h
  cases hc : s.cpc t <;> rw [hc] at h <;> simp only [reduceCtorEq] at h
  all_goals
    first
    | (injection h with h; subst h; simp [St.work, St.toEnd, St.emit, St.c, received, hst]; done)
    | (injection h with h; subst h; simp [St.work, St.toEnd, St.emit, St.c, received, hst]; omega)
    | (split at h
       · injection h with h; subst h; simp [St.work, St.toEnd, St.c, hst]
       · cases h)

theorem work_step {pick : Pick α} (hp : GoodPick pick) {s s' : St α} {a : Act α} (hst : s.stopped = true)
    (h : step pick s a = some s') :
    works [a] + s'.work + 8 * (received s.log).length ≤ s.work + wakes [a] + 15 * starts [a] + 8 * (received s'.log).length ∧
      s'.stopped = true := by
  cases a with
  | start =>
    simp only [step] at h
    split at h
    · rename_i hw
      injection h with h; subst h
      refine ⟨?_, hst⟩
      simp [works, wakes, starts, St.work, St.toEnd, St.w, hw]; omega
    · rename_i hw
      injection h with h; subst h
      refine ⟨?_, hst⟩
      simp [works, wakes, starts, St.work, St.toEnd, St.w, hw]; omega
    · cases h
  | worker =>
    obtain ⟨h1, h2, h3⟩ := work_worker hp hst h
    rw [h3]
    simp only [works, wakes, starts, List.countP_cons, List.countP_nil]
    refine ⟨?_, h2⟩
    simp; omega
  | wake =>
    simp only [step] at h
    split at h
    · rename_i hw
      injection h with h; subst h
      refine ⟨?_, hst⟩
      simp [works, wakes, starts, St.work, St.toEnd, St.w, hw]; omega
    · cases h
  | timeout =>
    simp only [step] at h
    split at h
    · rename_i hw
      injection h with h; subst h
      refine ⟨?_, hst⟩
      simp [works, wakes, starts, St.work, St.toEnd, St.w, hw]; omega
    · cases h
  | call t op =>
    simp only [step] at h
    split at h
    · injection h with h; subst h
      cases op <;> simp [enter, St.c, works, wakes, starts, St.work, St.toEnd, hst]
    · cases h
  | client t =>
    obtain ⟨h1, h2⟩ := work_client hst h
    refine ⟨?_, h2⟩
    simp [works, wakes, starts]; omega

/-- **C179:** after `stop`, the worker takes only boundedly many steps, under every schedule: at most 15, and 8 for each message in
the container or still to be received, one for each wake-up without a message and 15 for each further `start()`. -/
theorem C179_bounded (pick : Pick α) (hp : GoodPick pick) (sched : List (Act α)) : ∀ (s s' : St α), s.stopped = true →
    exec pick s sched = some s' →
    works sched + 8 * (received s.log).length ≤
      15 + 8 * s.queue.length + wakes sched + 15 * starts sched + 8 * (received s'.log).length := by
  have key : ∀ (sched : List (Act α)) (s s' : St α), s.stopped = true → exec pick s sched = some s' →
      works sched + s'.work + 8 * (received s.log).length ≤
        s.work + wakes sched + 15 * starts sched + 8 * (received s'.log).length := by
    intro sched
    induction sched with
    | nil => intro s s' _ hs; injection hs with hs; subst hs; simp [works, wakes, starts]
    | cons a as ih =>
      intro s s' hst hs
      cases h1 : step pick s a with
      | none => simp [exec, h1] at hs
      | some s1 =>
        rw [exec_cons h1] at hs
        obtain ⟨h2, h3⟩ := work_step hp hst h1
        have h4 := ih s1 s' h3 hs
        simp only [works, wakes, starts, List.countP_cons, List.countP_nil] at h2 h4 ⊢
        omega
  intro s s' hst hs
  have h1 := key sched s s' hst hs
  have h2 : s.toEnd ≤ 15 := by unfold St.toEnd; split <;> (try split) <;> omega
  unfold St.work at h1
  omega

/-- A client that holds the mutex is never stuck. -/
theorem owner_moves {pick : Pick α} (hp : GoodPick pick) {s : St α} (h : Reach pick s) {t : Nat} (hm : s.mtx = some (.client t)) :
    ∃ s', step pick s (.client t) = some s' := by
  have ho := ((reach_inv hp h).cown t).mpr hm
  simp only [step, client]
  cases hc : s.cpc t <;> rw [hc] at ho <;> simp [CPc.owns] at ho <;> simp

/-- **C179:** the worker of a started queue is never stuck: before its end it can always take a step of its own or its time-out is
coming, unless a client holds the mutex, and that client can take a step. -/
theorem C179_never_stuck (pick : Pick α) (hp : GoodPick pick) (s : St α) (h : Reach pick s) (hn : s.wpc ≠ .notStarted)
    (hf : s.wpc ≠ .finished) :
    (∃ s', step pick s .worker = some s') ∨ (∃ s', step pick s .timeout = some s') ∨
      ∃ t s', s.mtx = some (.client t) ∧ step pick s (.client t) = some s' := by
  have hi := reach_inv hp h
  have hal := hi.alive
  have lock : (s.wpc.owns = false) → s.mtx = none ∨ ∃ t s', s.mtx = some (.client t) ∧ step pick s (.client t) = some s' := by
    intro ho
    cases hm : s.mtx with
    | none => exact .inl rfl
    | some o =>
      cases o with
      | worker => have := hi.wown.mpr hm; rw [ho] at this; cases this
      | client t => obtain ⟨s', hs⟩ := owner_moves hp h hm; exact .inr ⟨t, s', rfl, hs⟩
  cases hw : s.wpc <;> rw [hw] at hn hf hal lock <;> simp only [ne_eq, not_true_eq_false, WPc.dead, reduceCtorEq] at hn hf hal
  case sleeping => right; left; simp [step, hw]
  case clearEnter =>
    rcases lock rfl with hm | hm
    · left; simp [step, worker, hw, hm]
    · exact .inr (.inr hm)
  case popEnter =>
    rcases lock rfl with hm | hm
    · left; simp [step, worker, hw, hm]
    · exact .inr (.inr hm)
  case clearLoop =>
    left
    simp only [step, worker, hw]
    split
    · exact ⟨_, rfl⟩
    · split <;> exact ⟨_, rfl⟩
  case popTake =>
    left
    simp only [step, worker, hw]
    split <;> exact ⟨_, rfl⟩
  all_goals (left; simp [step, worker, hw])

theorem reach_step {pick : Pick α} {s s' : St α} {a : Act α} (h : Reach pick s) (hs : step pick s a = some s') : Reach pick s' := by
  obtain ⟨sc, hsc⟩ := h
  exact ⟨sc ++ [a], by rw [exec_append, hsc]; simp [exec, hs]⟩

theorem worker_frame {pick : Pick α} {s s' : St α} {a : Act α} (ha : a = .worker ∨ a = .timeout) (h : step pick s a = some s')
    (hm : s.mtx = none ∨ s.mtx = some .worker) : s'.mtx = none ∨ s'.mtx = some .worker := by
  rcases ha with rfl | rfl
  · simp only [step, worker] at h
    cases hw : s.wpc <;> rw [hw] at h <;> simp only [reduceCtorEq] at h
    all_goals (try split at h)
    all_goals (try split at h)
    all_goals (first | cases h; done | (injection h with h))
    all_goals (try split at h)
    all_goals (subst h)
    all_goals (first | exact hm | (simp; done))
  · simp only [step] at h
    split at h
    · injection h with h; subst h; exact hm
    · cases h

/-- **C179:** so the worker comes to its end by its own steps and time-outs alone; it needs at most `15 + 8 * n` of them for `n`
messages in the container. -/
theorem C179_ends (pick : Pick α) (hp : GoodPick pick) (s : St α) (h : Reach pick s) (hst : s.stopped = true)
    (hn : s.wpc ≠ .notStarted) (hm : s.mtx = none ∨ s.mtx = some .worker) :
    ∃ sched s', ByWorker sched ∧ exec pick s sched = some s' ∧ s'.wpc = .finished ∧
      sched.length ≤ 15 + 8 * s.queue.length := by
  have key : ∀ (n : Nat) (s : St α), s.work ≤ n → Reach pick s → s.stopped = true → s.wpc ≠ .notStarted →
      (s.mtx = none ∨ s.mtx = some .worker) →
      ∃ sched s', ByWorker sched ∧ exec pick s sched = some s' ∧ s'.wpc = .finished ∧ sched.length ≤ n := by
    intro n
    induction n with
    | zero =>
      intro s hle h hst hn hm
      by_cases hf : s.wpc = .finished
      · exact ⟨[], s, (fun a ha => by cases ha), rfl, hf, Nat.le_refl _⟩
      · exfalso
        have hal := (reach_inv hp h).alive
        unfold St.work St.toEnd at hle
        cases hw : s.wpc <;> rw [hw] at hle hn hf hal <;> simp [WPc.dead] at hle hn hf hal
        split at hle <;> omega
    | succ n ih =>
      intro s hle h hst hn hm
      by_cases hf : s.wpc = .finished
      · exact ⟨[], s, (fun a ha => by cases ha), rfl, hf, Nat.zero_le _⟩
      · have move : ∃ a s1, (a = .worker ∨ a = .timeout) ∧ step pick s a = some s1 := by
          rcases C179_never_stuck pick hp s h hn hf with ⟨s1, h1⟩ | ⟨s1, h1⟩ | ⟨t, s1, h1, _⟩
          · exact ⟨_, s1, .inl rfl, h1⟩
          · exact ⟨_, s1, .inr rfl, h1⟩
          · rcases hm with hm | hm <;> rw [hm] at h1 <;> cases h1
        obtain ⟨a, s1, ha, h1⟩ := move
        have hr1 := reach_step h h1
        obtain ⟨hw, hst1⟩ := work_step hp hst h1
        have hrec : received s1.log = received s.log := by
          rcases ha with rfl | rfl
          · exact (work_worker hp hst h1).2.2
          · simp only [step] at h1
            split at h1
            · injection h1 with h1; subst h1; rfl
            · cases h1
        have hlt : s1.work ≤ n := by
          rw [hrec] at hw
          rcases ha with rfl | rfl <;> simp [works, wakes, starts] at hw <;> omega
        have hn1 : s1.wpc ≠ .notStarted := by
          intro e
          rcases ha with rfl | rfl
          · simp only [step, worker] at h1
            cases hw : s.wpc <;> rw [hw] at h1 <;> simp only [reduceCtorEq] at h1
            all_goals (try split at h1)
            all_goals (try split at h1)
            all_goals (first | cases h1; done | (injection h1 with h1))
            all_goals (try split at h1)
            all_goals (subst h1; simp [St.w, St.emit, hw] at e)
          · simp only [step] at h1
            split at h1
            · injection h1 with h1; subst h1; cases e
            · cases h1
        obtain ⟨sched, s', r1, r2, r3, r4⟩ := ih s1 hlt hr1 hst1 hn1 (worker_frame ha h1 hm)
        refine ⟨a :: sched, s', ?_, by rw [exec_cons h1]; exact r2, r3, by simp; omega⟩
        intro b hb
        rcases List.mem_cons.mp hb with rfl | hb
        · exact ha
        · exact r1 b hb
  obtain ⟨sched, s', r1, r2, r3, r4⟩ := key s.work s (Nat.le_refl _) h hst hn hm
  refine ⟨sched, s', r1, r2, r3, Nat.le_trans r4 ?_⟩
  have : s.toEnd ≤ 15 := by unfold St.toEnd; split <;> (try split) <;> omega
  unfold St.work; omega

/-- One more message for a worker that is about to look for one. -/
def oneMore (m : α) : List (Act α) := List.replicate 6 .worker ++ .call 1 (.receive m) :: List.replicate 4 (.client 1)

theorem oneMore_exec (s : St α) (m : α) (hw : s.wpc = .innerPred) (hq : s.queue = [m]) (hm : s.mtx = none) (hd : s.discard = false)
    (hc : s.cpc 1 = .idle) : ∃ s', exec pickFront s (oneMore m) = some s' ∧ s'.wpc = .innerPred ∧ s'.queue = [m] ∧ s'.mtx = none ∧
      s'.discard = false ∧ s'.cpc 1 = .idle ∧ (processed s'.log).length = (processed s.log).length + 1 := by
  have : (exec pickFront s (oneMore m)).map (fun s' => (s'.wpc, s'.queue, s'.mtx, s'.discard, s'.cpc 1, (processed s'.log).length)) =
      some (.innerPred, [m], none, false, .idle, (processed s.log).length + 1) := by
    simp [oneMore, List.replicate, exec, step, worker, client, enter, St.w, St.c, St.emit, hw, hq, hm, hd, hc, pickFront, processed]
  rw [Option.map_eq_some_iff] at this
  obtain ⟨s', h1, h2⟩ := this
  simp only [Prod.mk.injEq] at h2
  exact ⟨s', h1, h2⟩

/-- Why the messages still to come must be counted: a client that inserts often enough keeps a stopped worker busy for ever; after `n`
messages it is still where it was. -/
theorem C179_starved (n : Nat) (m : α) : ∀ (s : St α), s.wpc = .innerPred → s.queue = [m] → s.mtx = none → s.discard = false →
    s.cpc 1 = .idle → ∃ s', exec pickFront s (List.replicate n (oneMore m)).flatten = some s' ∧ s'.wpc = .innerPred ∧
      (processed s'.log).length = (processed s.log).length + n := by
  induction n with
  | zero => intro s hw _ _ _ _; exact ⟨s, rfl, hw, rfl⟩
  | succ n ih =>
    intro s hw hq hm hd hc
    obtain ⟨s1, e1, h1, h2, h3, h4, h5, h6⟩ := oneMore_exec s m hw hq hm hd hc
    obtain ⟨s2, e2, k1, k2⟩ := ih s1 h1 h2 h3 h4 h5
    refine ⟨s2, ?_, k1, by omega⟩
    rw [List.replicate_succ, List.flatten_cons, exec_append, e1]
    exact e2

/-- Stopped with one message to process: the state the last theorem begins with, and the one of the next examples. -/
def stoppedSched : List (Act Nat) :=
  [.start] ++ List.replicate 5 .worker ++ [.call 1 .stop, .client 1, .client 1, .call 1 (.receive 7)] ++ List.replicate 4 (.client 1) ++
    [.wake, .worker, .worker]

set_option synthInstance.maxSize 1000 in
example : (exec pickFront init stoppedSched).map (fun s => (s.wpc, s.queue, s.mtx, s.discard, s.cpc 1, s.stopped)) =
    some (.innerPred, [7], none, false, .idle, true) := by decide +kernel

/-- Left alone, the worker ends after 10 steps; the bound is 23. -/
example : (exec pickFront init (stoppedSched ++ List.replicate 10 .worker)).map (fun s => (s.wpc, processed s.log)) =
    some (.finished, [7]) := by decide +kernel

/-- A stopped queue that is started again, and woken up once for nothing, ends again, without another `stop`. -/
example : (exec pickFront init (stoppedSched ++ List.replicate 10 .worker ++ [.start] ++ List.replicate 5 .worker ++ [.wake, .worker, .timeout] ++
    List.replicate 5 .worker)).map (fun s => (s.wpc, ends s.log, stops s.log)) = some (.finished, 2, 1) := by decide +kernel

/-! ### C110 exactly -/

theorem stopped_of_call {pick : Pick α} {s : St α} (h : Reach pick s) : (∃ t, Event.stopCall t ∈ s.log) → s.stopped = true := by
  obtain ⟨sched, hs⟩ := h
  have key : ∀ (sched : List (Act α)) (s s' : St α), ((∃ t, Event.stopCall t ∈ s.log) → s.stopped = true) →
      exec pick s sched = some s' → (∃ t, Event.stopCall t ∈ s'.log) → s'.stopped = true := by
    intro sched
    induction sched with
    | nil => intro s s' hp hs; injection hs with hs; subst hs; exact hp
    | cons a as ih =>
      intro s s' hp hs
      cases h1 : step pick s a with
      | none => simp [exec, h1] at hs
      | some s1 =>
        rw [exec_cons h1] at hs
        refine ih s1 s' ?_ hs
        cases a with
        | start =>
          simp only [step] at h1
          split at h1 <;> first | cases h1; done | (injection h1 with h1; subst h1; exact hp)
        | wake =>
          simp only [step] at h1
          split at h1 <;> first | cases h1; done | (injection h1 with h1; subst h1; exact hp)
        | timeout =>
          simp only [step] at h1
          split at h1 <;> first | cases h1; done | (injection h1 with h1; subst h1; exact hp)
        | call t op =>
          simp only [step] at h1
          split at h1
          · injection h1 with h1; subst h1
            cases op <;> exact hp
          · cases h1
        | client t =>
          simp only [step, client] at h1
          cases hc : s.cpc t <;> rw [hc] at h1 <;> simp only [reduceCtorEq] at h1
          all_goals (try split at h1)
          all_goals (first | cases h1; done | (injection h1 with h1))
          all_goals subst h1
          all_goals (first | (intro _; rfl) | exact hp | (simpa [St.emit, St.c] using hp))
        | worker =>
          simp only [step, worker] at h1
          cases hw : s.wpc <;> rw [hw] at h1 <;> simp only [reduceCtorEq] at h1
          all_goals (try split at h1)
          all_goals (try split at h1)
          all_goals (first | cases h1; done | (injection h1 with h1))
          all_goals (try split at h1)
          all_goals subst h1
          all_goals (first | exact hp | (simpa [St.emit, St.w] using hp))
  exact key sched _ _ (by simp [init]) hs

/-- **C110, exactly:** a queue that is started, for the first time or again, ends by itself, without any client doing anything more, if and
only if `stop` was called at any time before, be it in an earlier run or before the first. -/
theorem C110_exact (pick : Pick α) (hp : GoodPick pick) (s s1 : St α) (h : Reach pick s) (hs : step pick s .start = some s1)
    (hm : s.mtx = none) :
    (∃ sched s', ByWorker sched ∧ exec pick s1 sched = some s' ∧ s'.wpc = .finished) ↔ ∃ t, Event.stopCall t ∈ s.log := by
  have h1 := reach_step h hs
  have hk : s1.stopped = s.stopped ∧ s1.mtx = s.mtx ∧ s1.wpc = .checkRunning ∧ s1.log = s.log := by
    simp only [step] at hs
    split at hs <;> first | cases hs; done | (injection hs with hs; subst hs; exact ⟨rfl, rfl, rfl, rfl⟩)
  constructor
  · rintro ⟨sched, s', hb, he, hf⟩
    obtain ⟨sc, hsc⟩ := h1
    have hr' : Reach pick s' := ⟨sc ++ sched, by rw [exec_append, hsc]; exact he⟩
    have hst : s'.stopped = true := (reach_einv hp hr').2.stop (.inr (.inl hf))
    have keep : ∀ (sched : List (Act α)) (s s' : St α), ByWorker sched → exec pick s sched = some s' → s'.stopped = s.stopped := by
      intro sched
      induction sched with
      | nil => intro s s' _ hs; injection hs with hs; subst hs; rfl
      | cons a as ih =>
        intro s s' hb hs
        cases h1 : step pick s a with
        | none => simp [exec, h1] at hs
        | some s1 =>
          rw [exec_cons h1] at hs
          rw [ih s1 s' (fun b hb' => hb b (by simp [hb'])) hs]
          rcases hb a (by simp) with rfl | rfl
          · simp only [step, worker] at h1
            cases hw : s.wpc <;> rw [hw] at h1 <;> simp only [reduceCtorEq] at h1
            all_goals (try split at h1)
            all_goals (try split at h1)
            all_goals (first | cases h1; done | (injection h1 with h1))
            all_goals (try split at h1)
            all_goals (subst h1; rfl)
          · simp only [step] at h1
            split at h1
            · injection h1 with h1; subst h1; rfl
            · cases h1
    rw [keep sched s1 s' hb he, hk.1] at hst
    exact (reach_einv hp h).2.flag hst
  · intro hc
    have hst := stopped_of_call h hc
    obtain ⟨sched, s', r1, r2, r3, _⟩ := C179_ends pick hp s1 h1 (by rw [hk.1]; exact hst) (by rw [hk.2.2.1]; exact fun e => by cases e)
      (.inl (by rw [hk.2.1]; exact hm))
    exact ⟨sched, s', r1, r2, r3⟩

/-! ### C109 exactly -/

/-- **C109, exactly:** the races are these two: the emptiness tests of lines 143 and 153 against a client that inserts, and the stores of
`_running` in lines 140 and 158 against `is_running()`. -/
theorem C109_exact (pick : Pick α) (hp : GoodPick pick) (s : St α) (h : Reach pick s) (t : Nat) :
    WorkerRace s t ↔ ((s.wpc = .waitPred ∨ s.wpc = .innerPred) ∧ ∃ m, s.cpc t = .pushBody m) ∨
      ((s.wpc = .setRunning ∨ s.wpc = .readStopped) ∧ s.cpc t = .runningRead) := by
  refine ⟨(C109_races_partial pick hp s h).2 t, ?_⟩
  rintro (⟨hw | hw, m, hc⟩ | ⟨hw | hw, hc⟩)
  · exact ⟨.queue, false, true, by rw [hw]; simp [WPc.accesses], by rw [hc]; simp [CPc.accesses], .inr rfl⟩
  · exact ⟨.queue, false, true, by rw [hw]; simp [WPc.accesses], by rw [hc]; simp [CPc.accesses], .inr rfl⟩
  · exact ⟨.running, true, false, by rw [hw]; simp [WPc.accesses], by rw [hc]; simp [CPc.accesses], .inl rfl⟩
  · exact ⟨.running, true, false, by rw [hw]; simp [WPc.accesses], by rw [hc]; simp [CPc.accesses], .inl rfl⟩

/-- C109: the remaining two of the four situations occur as well (the others are the counterexamples). -/
example : (exec pickFront init (stoppedSched ++ [.call 2 (.receive 8), .client 2])).map (fun s => (s.wpc, s.cpc 2)) =
    some (.innerPred, .pushBody 8) := by decide +kernel

example : (exec pickFront init (stoppedSched ++ List.replicate 7 .worker ++ [.call 2 .isRunning])).map (fun s => (s.wpc, s.cpc 2)) =
    some (.readStopped, .runningRead) := by decide +kernel

end Verif.MsgQueue
