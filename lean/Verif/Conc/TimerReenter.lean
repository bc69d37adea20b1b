import Verif.Conc.TimerProps

/-
C147: callbacks of base_timer_t that call the timer.

`on_start`, `on_interval` and `on_stop` run on the timer's thread (timer.h:137, 154-168), which holds `_deletion_mtx` meanwhile.
What they do is an arbitrary function of the state and of the number of calls they have made: the next method they call on their own
timer, or that they return.  The thread executes such a call step by step, as the client with the number `self`.

`stop(true)`, `safe_delete` and `join` join the thread by itself, which throws `std::system_error` (thread.h:67-71), and `start`
assigns to a joinable `std::thread` (thread.h:48-51): both end the program.  `on_stop` as called by `stop` (timer.h:55) makes no calls.
-/

namespace Verif.Timer

/-- A method called by a callback. -/
inductive Call where
  | op (o : Op)
  | join                       -- thread.h:67; `stop(true)`, timer.h:53-60; `safe_delete`, timer.h:84-87
  | start                      -- thread.h:48

/-- What the callback does next, given the state and the number of calls it has made; `none`: it returns. -/
abbrev Callbacks := St → Nat → Option Call

/-- The thread is inside a callback. -/
def St.inCallback (s : St) : Bool :=
  match s.pc with
  | .inCall => true
  | .startBody | .stopBody => !s.deleted
  | _ => false

structure RSt where
  base : St
  made : Nat                   -- calls made by the callback under way
  dead : Bool                  -- `std::terminate` was called

def RSt.init (ms : Nat) : RSt := ⟨Verif.Timer.init ms, 0, false⟩

/-- One step of the thread. -/
def threadR (cb : Callbacks) (self : Nat) (s : RSt) : Option RSt :=
  if s.base.inCallback then
    if s.base.cpc self = .idle then
      match cb s.base s.made with
      | none => (thread s.base).map fun b => ⟨b, 0, false⟩
      | some (.op o) => some ⟨s.base.c self (entry o), s.made + 1, false⟩
      | some .join | some .start => some { s with dead := true }
    else (client s.base self).map fun b => ⟨b, s.made, false⟩
  else (thread s.base).map fun b => ⟨b, 0, false⟩

/-- One step; the other clients have other numbers than `self`. -/
def stepR (cb : Callbacks) (self : Nat) (s : RSt) (a : Act) : Option RSt :=
  if s.dead then none
  else
    match a with
    | .thread => threadR cb self s
    | .ret v =>
      if s.base.cpc self = .idle ∧ (cb s.base s.made).isNone then (step s.base (.ret v)).map fun b => ⟨b, 0, false⟩ else none
    | .call t op => if t = self then none else (step s.base (.call t op)).map fun b => ⟨b, s.made, false⟩
    | .client t => if t = self then none else (step s.base (.client t)).map fun b => ⟨b, s.made, false⟩
    | a => (step s.base a).map fun b => ⟨b, s.made, false⟩

def execR (cb : Callbacks) (self : Nat) (s : RSt) : List Act → Option RSt
  | [] => some s
  | a :: as => (stepR cb self s a).bind fun s' => execR cb self s' as

def ReachR (cb : Callbacks) (self ms : Nat) (s : RSt) : Prop := ∃ sched, execR cb self (RSt.init ms) sched = some s

/-! ### Every step is one of the model without calls -/

theorem stepR_step {cb : Callbacks} {self : Nat} {s s' : RSt} {a : Act} (h : stepR cb self s a = some s') :
    s'.base = s.base ∨ ∃ b, step s.base b = some s'.base ∧ (b = .start → a = .start) := by
  have hm : ∀ {o : Option St} {b : Act} {n : Nat}, step s.base b = o → (b = .start → a = .start) →
      (o.map fun b => (⟨b, n, false⟩ : RSt)) = some s' →
      s'.base = s.base ∨ ∃ b, step s.base b = some s'.base ∧ (b = .start → a = .start) := by
    intro o b n e hb ho
    cases o with
    | none => cases ho
    | some s1 =>
      injection ho with ho
      subst ho
      exact .inr ⟨b, e, hb⟩
  unfold stepR at h
  split at h
  · cases h
  cases a with
  | thread =>
    simp only [threadR] at h
    split at h
    · split at h
      · next hc =>
        split at h
        · exact hm (b := .thread) rfl (fun e => by cases e) h
        · next o _ =>
          injection h with h
          subst h
          exact .inr ⟨.call self o, by simp [step, hc], (fun e => by cases e)⟩
        · injection h with h
          subst h
          exact .inl rfl
        · injection h with h
          subst h
          exact .inl rfl
      · exact hm (b := .client self) rfl (fun e => by cases e) h
    · exact hm (b := .thread) rfl (fun e => by cases e) h
  | ret v =>
    simp only at h
    split at h
    · exact hm (b := .ret v) rfl id h
    · cases h
  | call t op =>
    simp only at h
    split at h
    · cases h
    · exact hm (b := .call t op) rfl id h
  | client t =>
    simp only at h
    split at h
    · cases h
    · exact hm (b := .client t) rfl id h
  | start => exact hm (b := .start) rfl id h
  | wake => exact hm (b := .wake) rfl id h
  | timeout => exact hm (b := .timeout) rfl id h
  | tick d => exact hm (b := .tick d) rfl id h
  | adjust d => exact hm (b := .adjust d) rfl id h

/-- A schedule with calls of the callbacks is one without. -/
theorem execR_exec {cb : Callbacks} {self : Nat} : ∀ (sched : List Act) {s s' : RSt}, execR cb self s sched = some s' →
    ∃ sched', exec s.base sched' = some s'.base ∧ (.start ∉ sched → .start ∉ sched') := by
  intro sched
  induction sched with
  | nil => intro s s' h; injection h with h; subst h; exact ⟨[], rfl, fun _ => by simp⟩
  | cons a as ih =>
    intro s s' h
    cases h1 : stepR cb self s a with
    | none => simp [execR, h1] at h
    | some s1 =>
      simp only [execR, h1, Option.bind_some] at h
      obtain ⟨bs, hb, hn⟩ := ih h
      rcases stepR_step h1 with e | ⟨b, eb, hs⟩
      · exact ⟨bs, by rw [← e]; exact hb, fun hh => hn (fun hm => hh (by simp [hm]))⟩
      · refine ⟨b :: bs, by rw [exec_cons eb]; exact hb, fun hh hm => ?_⟩
        rcases List.mem_cons.1 hm with e | hm
        · exact hh (by simp [hs e.symm])
        · exact hn (fun hm => hh (by simp [hm])) hm

theorem reachR_reach {cb : Callbacks} {self ms : Nat} {s : RSt} (h : ReachR cb self ms s) : Reach ms s.base := by
  obtain ⟨sched, hs⟩ := h
  obtain ⟨sched', e, _⟩ := execR_exec sched hs
  exact ⟨sched', e⟩

theorem reachR_ind {cb : Callbacks} {self ms : Nat} {P : RSt → Prop} (h0 : P (RSt.init ms))
    (hstep : ∀ s a s', P s → stepR cb self s a = some s' → P s') {s : RSt} (h : ReachR cb self ms s) : P s := by
  obtain ⟨sched, hs⟩ := h
  have : ∀ (sched : List Act) (s s' : RSt), P s → execR cb self s sched = some s' → P s' := by
    intro sched
    induction sched with
    | nil => intro s s' hp hs; injection hs with hs; subst hs; exact hp
    | cons a as ih =>
      intro s s' hp hs
      cases h1 : stepR cb self s a with
      | none => simp [execR, h1] at hs
      | some s1 =>
        simp only [execR, h1, Option.bind_some] at hs
        exact ih s1 s' (hstep s a s1 hp h1) hs
  exact this sched _ s h0 hs

/-! ### C147 -/

/-- The callbacks call only `stop`, `notify` and `set_interval`. -/
def Callbacks.Plain (cb : Callbacks) : Prop := ∀ s n c, cb s n = some c → ∃ o, c = .op o ∧ o ≠ .delete

/-- The calls of the callbacks return: within three steps of the thread alone. -/
def CallReturns (cb : Callbacks) (self : Nat) (s : RSt) : Prop :=
  s.base.inCallback = true → ∃ k s', k ≤ 3 ∧ execR cb self s (List.replicate k .thread) = some s' ∧
    s'.base.pc = s.base.pc ∧ s'.base.cpc self = .idle

/-- A `stop` that a callback called is obeyed: `on_interval` does not begin again without a new `start`. -/
def StopObeyed (cb : Callbacks) (self : Nat) (s : RSt) : Prop :=
  s.base.inCallback = true → s.base.cpc self = .stopStore →
    ∀ sched s', .start ∉ sched → execR cb self s sched = some s' → intervals s'.base.log = intervals s.base.log

/-- C147 in full: whatever methods the callbacks call, the program is not terminated, the calls return, and the calls of `stop` are
obeyed. -/
def C147_statement : Prop :=
  ∀ (cb : Callbacks) (self ms : Nat) (s : RSt), ReachR cb self ms s → s.dead = false ∧ CallReturns cb self s ∧ StopObeyed cb self s

theorem client_other {s s' : St} {t : Nat} (h : client s t = some s') : s'.pc = s.pc ∧ ∀ u, u ≠ t → s'.cpc u = s.cpc u := by
  unfold client at h
  split at h <;> repeat' (split at h)
  all_goals first
    | (injection h with h; subst h; exact ⟨rfl, fun u hu => if_neg hu⟩)
    | cases h

theorem thread_cpc {s s' : St} (h : thread s = some s') : s'.cpc = s.cpc := by
  unfold thread at h
  split at h <;> repeat' (split at h)
  all_goals first
    | (injection h with h; subst h; first | rfl | (split <;> rfl))
    | cases h

/-- Steps a call still needs, if it is neither a destruction nor over. -/
def CPc.rank : CPc → Nat
  | .stopStore => 3 | .stopCallback => 2 | .stopNotify => 1
  | .forcedStore => 2 | .forcedNotify => 1
  | .intervalStore _ => 1
  | _ => 0

/-- The calls of the callbacks are no destructions. -/
def Calm (self : Nat) (s : RSt) : Prop := s.dead = false ∧ (s.base.cpc self = .idle ∨ 0 < (s.base.cpc self).rank)

/-- A call that is no destruction makes a step. -/
theorem client_free {s : St} {t : Nat} (h : 0 < (s.cpc t).rank) :
    ∃ s', client s t = some s' ∧ (s'.cpc t).rank + 1 = (s.cpc t).rank ∧ (s'.cpc t = .idle ∨ 0 < (s'.cpc t).rank) ∧
      s'.inCallback = s.inCallback := by
  cases hc : s.cpc t <;> rw [hc] at h <;> simp only [CPc.rank, Nat.lt_irrefl] at h <;> simp only [client, hc] <;>
    refine ⟨_, rfl, ?_, ?_, rfl⟩ <;> simp [St.c, St.emit, CPc.rank]

theorem plain_calm {cb : Callbacks} (hcb : cb.Plain) {self ms : Nat} {s : RSt} (h : ReachR cb self ms s) : Calm self s := by
  refine reachR_ind (P := Calm self) ⟨rfl, .inl rfl⟩ ?_ h
  intro s a s' ⟨hd, hi⟩ hs
  have hm : ∀ {o : Option St} {n : Nat}, (∀ b, o = some b → b.cpc self = s.base.cpc self) →
      (o.map fun b => (⟨b, n, false⟩ : RSt)) = some s' → Calm self s' := by
    intro o n hc ho
    cases o with
    | none => cases ho
    | some s1 =>
      injection ho with ho
      subst ho
      refine ⟨rfl, ?_⟩
      simp only [hc s1 rfl]
      exact hi
  unfold stepR at hs
  rw [hd] at hs
  simp only [Bool.false_eq_true, if_false] at hs
  cases a with
  | thread =>
    simp only [threadR] at hs
    split at hs
    · split at hs
      · split at hs
        · exact hm (fun b hb => by rw [thread_cpc hb]) hs
        · next o hc =>
          injection hs with hs
          subst hs
          refine ⟨rfl, .inr ?_⟩
          obtain ⟨o', e, hne⟩ := hcb _ _ _ hc
          injection e with e
          subst e
          simp only [St.c, if_true]
          cases o <;> simp [entry, CPc.rank]
          exact hne rfl
        · next hc => obtain ⟨o, e, _⟩ := hcb _ _ _ hc; cases e
        · next hc => obtain ⟨o, e, _⟩ := hcb _ _ _ hc; cases e
      · next hne =>
        rcases hi with hi | hi
        · exact absurd hi hne
        · obtain ⟨s1, e, _, h1, _⟩ := client_free hi
          rw [e] at hs
          injection hs with hs
          subst hs
          exact ⟨rfl, h1⟩
    · exact hm (fun b hb => by rw [thread_cpc hb]) hs
  | ret v =>
    simp only at hs
    split at hs
    · refine hm (fun b hb => ?_) hs
      simp only [step] at hb
      split at hb
      · injection hb with hb; subst hb; rfl
      · cases hb
    · cases hs
  | call t op =>
    simp only at hs
    split at hs
    · cases hs
    · next ht =>
      refine hm (fun b hb => ?_) hs
      simp only [step] at hb
      split at hb
      · injection hb with hb; subst hb; exact if_neg (Ne.symm ht)
      · cases hb
  | client t =>
    simp only at hs
    split at hs
    · cases hs
    · next ht => exact hm (fun b hb => (client_other hb).2 self (Ne.symm ht)) hs
  | start =>
    refine hm (fun b hb => ?_) hs
    simp only [step] at hb
    split at hb
    · injection hb with hb; subst hb; rfl
    · cases hb
  | wake =>
    refine hm (fun b hb => ?_) hs
    simp only [step] at hb
    split at hb
    · injection hb with hb; subst hb; rfl
    · cases hb
  | timeout =>
    refine hm (fun b hb => ?_) hs
    simp only [step] at hb
    split at hb
    · injection hb with hb; subst hb; rfl
    · cases hb
  | tick d => exact hm (fun b hb => by injection hb with hb; subst hb; rfl) hs
  | adjust d => exact hm (fun b hb => by injection hb with hb; subst hb; rfl) hs

theorem call_returns (cb : Callbacks) (self : Nat) : ∀ (n : Nat) (s : RSt), (s.base.cpc self).rank ≤ n → Calm self s →
    s.base.inCallback = true → ∃ k s', k ≤ n ∧ execR cb self s (List.replicate k .thread) = some s' ∧ s'.base.pc = s.base.pc ∧
      s'.base.cpc self = .idle := by
  intro n
  induction n with
  | zero =>
    intro s hr hc _
    rcases hc.2 with hi | hi
    · exact ⟨0, s, Nat.le_refl _, rfl, rfl, hi⟩
    · omega
  | succ n ih =>
    intro s hr hc hcb
    rcases hc.2 with hi | hi
    · exact ⟨0, s, Nat.zero_le _, rfl, rfl, hi⟩
    · obtain ⟨b, e, r, h1, h2⟩ := client_free hi
      have hne : s.base.cpc self ≠ .idle := by intro h; rw [h] at hi; simp [CPc.rank] at hi
      have hs : stepR cb self s .thread = some ⟨b, s.made, false⟩ := by
        simp [stepR, hc.1, threadR, hcb, hne, e]
      obtain ⟨k, s2, hk, e2, p2, i2⟩ := ih ⟨b, s.made, false⟩ (by simp only; omega) ⟨rfl, h1⟩ (by simp only; rw [h2]; exact hcb)
      refine ⟨k + 1, s2, by omega, ?_, by rw [p2]; exact (client_other e).1, i2⟩
      rw [List.replicate_succ, execR, hs]
      exact e2

/-- C147, the part that holds: callbacks that call `stop`, `notify` and `set_interval`, in any number and depending on the whole state,
do not terminate the program, their calls return without waiting for other threads, and the timer is in a state that it reaches
also when other threads make these calls: all theorems about `Reach` (C101 to C104, C113, C114) hold.  Missing: `start`, `join`,
`stop(true)`, `safe_delete` and the destructor. -/
theorem C147_reentrant_partial (cb : Callbacks) (hcb : cb.Plain) (self ms : Nat) (s : RSt) (h : ReachR cb self ms s) :
    s.dead = false ∧ CallReturns cb self s ∧ Reach ms s.base := by
  have hc := plain_calm hcb h
  refine ⟨hc.1, fun hin => ?_, reachR_reach h⟩
  exact call_returns cb self 3 s (by cases s.base.cpc self <;> simp [CPc.rank]) hc hin

/-- The end of `run`. -/
def Pc.ending : Pc → Bool
  | .stopBody | .stopUnlock | .finish | .finished => true
  | _ => false

theorem ending_step {s s' : St} {a : Act} (ha : a ≠ .start) (h : s.pc.ending = true) (hs : step s a = some s') :
    s'.pc.ending = true ∧ intervals s'.log = intervals s.log := by
  cases a with
  | start => exact absurd rfl ha
  | thread =>
    simp only [step, thread] at hs
    cases hw : s.pc <;> rw [hw] at hs h <;> simp only [Pc.ending, reduceCtorEq, Bool.false_eq_true] at hs h
    all_goals (injection hs with hs)
    all_goals (try split at hs)
    all_goals (subst hs; exact ⟨rfl, rfl⟩)
  | ret v =>
    simp only [step] at hs
    split at hs
    · next hw => rw [hw] at h; cases h
    · cases hs
  | timeout =>
    simp only [step] at hs
    split at hs
    · next hw => rw [hw.1] at h; cases h
    · cases hs
  | wake =>
    simp only [step] at hs
    split at hs
    · next hw => rw [hw] at h; cases h
    · cases hs
  | tick d => injection hs with hs; subst hs; exact ⟨h, rfl⟩
  | adjust d => injection hs with hs; subst hs; exact ⟨h, rfl⟩
  | call t op =>
    simp only [step] at hs
    split at hs
    · injection hs with hs; subst hs; exact ⟨h, rfl⟩
    · cases hs
  | client t =>
    simp only [step, client] at hs
    split at hs
    all_goals (try split at hs)
    all_goals (first | cases hs; done | (injection hs with hs; subst hs))
    all_goals (exact ⟨h, rfl⟩)

/-- After a callback has called `stop`: the call has not cleared the flag yet, or it has, or the run is at its end anyway. -/
def Obeying (self N : Nat) (s : RSt) : Prop :=
  (intervals s.base.log = N ∧ (s.base.pc = .inCall ∧ s.base.cpc self = .stopStore ∨ s.base.pc.ending = true)) ∨
  (Stopped s.base ∧ intervals s.base.log + s.base.pc.committed ≤ N)

theorem obeying_step {cb : Callbacks} {self N : Nat} {s s' : RSt} {a : Act} (ha : a ≠ .start) (h : Obeying self N s)
    (hs : stepR cb self s a = some s') : Obeying self N s' := by
  rcases h with ⟨hN, ⟨hp, hc⟩ | he⟩ | ⟨hst, hN⟩
  · have hin : s.base.inCallback = true := by simp [St.inCallback, hp]
    have hm : ∀ {o : Option St} {n : Nat}, (∀ b, o = some b → b.pc = .inCall ∧ b.cpc self = .stopStore ∧ intervals b.log = N) →
        (o.map fun b => (⟨b, n, false⟩ : RSt)) = some s' → Obeying self N s' := by
      intro o n hc ho
      cases o with
      | none => cases ho
      | some s1 =>
        injection ho with ho
        subst ho
        obtain ⟨h1, h2, h3⟩ := hc s1 rfl
        exact .inl ⟨h3, .inl ⟨h1, h2⟩⟩
    unfold stepR at hs
    split at hs
    · cases hs
    cases a with
    | start => exact absurd rfl ha
    | thread =>
      simp only [threadR, hin, if_true, hc, reduceCtorEq, if_false, client, Option.map_some, Option.some.injEq] at hs
      subst hs
      refine .inr ⟨⟨rfl, by simp [St.c, St.emit, hp, Pc.listening]⟩, ?_⟩
      simp [St.c, St.emit, hp, Pc.committed, intervals, hN]
    | ret v =>
      simp only [hc, reduceCtorEq, false_and, if_false] at hs
    | call t op =>
      simp only at hs
      split at hs
      · cases hs
      · next ht =>
        refine hm (fun b hb => ?_) hs
        simp only [step] at hb
        split at hb
        · injection hb with hb; subst hb; exact ⟨hp, by simpa [St.c, Ne.symm ht] using hc, hN⟩
        · cases hb
    | client t =>
      simp only at hs
      split at hs
      · cases hs
      · next ht =>
        refine hm (fun b hb => ?_) hs
        obtain ⟨h1, h2⟩ := client_other hb
        refine ⟨by rw [h1]; exact hp, by rw [h2 self (Ne.symm ht)]; exact hc, ?_⟩
        simp only [step, client] at hb
        split at hb
        all_goals (try split at hb)
        all_goals (first | cases hb; done | (injection hb with hb; subst hb))
        all_goals (exact hN)
    | wake =>
      refine hm (fun b hb => ?_) hs
      simp [step, hp] at hb
    | timeout =>
      refine hm (fun b hb => ?_) hs
      simp [step, hp] at hb
    | tick d => exact hm (fun b hb => by injection hb with hb; subst hb; exact ⟨hp, hc, hN⟩) hs
    | adjust d => exact hm (fun b hb => by injection hb with hb; subst hb; exact ⟨hp, hc, hN⟩) hs
  · rcases stepR_step hs with e | ⟨b, eb, hb⟩
    · exact .inl ⟨by rw [e]; exact hN, .inr (by rw [e]; exact he)⟩
    · obtain ⟨h1, h2⟩ := ending_step (fun hh => ha (hb hh)) he eb
      exact .inl ⟨by rw [h2]; exact hN, .inr h1⟩
  · rcases stepR_step hs with e | ⟨b, eb, hb⟩
    · exact .inr ⟨by rw [e]; exact hst, by rw [e]; exact hN⟩
    · obtain ⟨h1, h2⟩ := stopped_step (fun hh => ha (hb hh)) hst eb
      exact .inr ⟨h1, by omega⟩

/-- C147, the part that holds: a `stop` called by `on_interval` or by `on_stop` is obeyed, whatever else the callback and other threads
call.  Missing: one called by `on_start`. -/
theorem C147_stop_partial (cb : Callbacks) (self : Nat) (s : RSt) (hp : s.base.pc ≠ .startBody) : StopObeyed cb self s := by
  intro hin hc sched s' hns he
  have h0 : Obeying self (intervals s.base.log) s := by
    refine .inl ⟨rfl, ?_⟩
    cases hw : s.base.pc <;> simp only [St.inCallback, hw, Bool.false_eq_true, ne_eq, not_true_eq_false] at hin hp
    · exact .inl ⟨rfl, hc⟩
    · exact .inr rfl
  have key : ∀ (sched : List Act) (s s' : RSt), .start ∉ sched → execR cb self s sched = some s' → ∀ N, Obeying self N s → Obeying self N s' := by
    intro sched
    induction sched with
    | nil => intro s s' _ he N h; injection he with he; subst he; exact h
    | cons a as ih =>
      intro s s' hn he N h
      cases h1 : stepR cb self s a with
      | none => simp [execR, h1] at he
      | some s1 =>
        simp only [execR, h1, Option.bind_some] at he
        exact ih s1 s' (fun hm => hn (by simp [hm])) he N (obeying_step (fun e => hn (by simp [e])) h h1)
  have mono : ∀ (sched : List Act) (s s' : St), exec s sched = some s' → intervals s.log ≤ intervals s'.log := by
    intro sched
    induction sched with
    | nil => intro s s' he; injection he with he; subst he; exact Nat.le_refl _
    | cons a as ih =>
      intro s s' he
      cases h1 : step s a with
      | none => simp [exec, h1] at he
      | some s1 =>
        rw [exec_cons h1] at he
        exact Nat.le_trans (intervals_mono h1) (ih s1 s' he)
  obtain ⟨sched', e', _⟩ := execR_exec sched he
  have h1 := mono sched' _ _ e'
  rcases key sched s s' hns he _ h0 with ⟨h2, _⟩ | ⟨_, h2⟩
  · exact h2
  · omega

/-- Callbacks that call `stop` once in `on_start`. -/
def stopAtStart : Callbacks := fun s n => if s.pc = .startBody ∧ n = 0 then some (.op .stop) else none

/-- C147 fails: a `stop` called by `on_start` is overwritten by `_is_running = true` (timer.h:130). -/
theorem C147_counterexample : ¬ C147_statement := by
  intro h
  have hk : (execR stopAtStart 9 (RSt.init 100) ([.start, .thread, .thread, .thread])).map
      (fun s => (s.base.inCallback, s.base.cpc 9, intervals s.base.log)) = some (true, .stopStore, 0) := by decide +kernel
  cases hs : execR stopAtStart 9 (RSt.init 100) [.start, .thread, .thread, .thread] with
  | none => rw [hs] at hk; cases hk
  | some s =>
    rw [hs] at hk
    simp only [Option.map_some, Option.some.injEq, Prod.mk.injEq] at hk
    have h1 := (h stopAtStart 9 100 s ⟨_, hs⟩).2.2 hk.1 hk.2.1
    have hk2 : (execR stopAtStart 9 (RSt.init 100) ([.start, .thread, .thread, .thread] ++ (List.replicate 10 .thread ++ [.tick 100000000, .timeout] ++
        List.replicate 4 .thread))).map (fun s => intervals s.base.log) = some 1 := by decide +kernel
    have happ : ∀ (as bs : List Act) (s : RSt), execR stopAtStart 9 s (as ++ bs) =
        (execR stopAtStart 9 s as).bind fun s' => execR stopAtStart 9 s' bs := by
      intro as bs
      induction as with
      | nil => intro s; rfl
      | cons a as ih =>
        intro s
        simp only [List.cons_append, execR]
        cases stepR stopAtStart 9 s a with
        | none => rfl
        | some s1 => exact ih s1
    rw [happ, hs] at hk2
    simp only [Option.bind_some] at hk2
    cases hs2 : execR stopAtStart 9 s (List.replicate 10 .thread ++ [.tick 100000000, .timeout] ++ List.replicate 4 .thread) with
    | none => rw [hs2] at hk2; cases hk2
    | some s2 =>
      rw [hs2] at hk2
      have := h1 _ s2 (by simp) hs2
      simp only [Option.map_some, Option.some.injEq] at hk2
      omega

/-- C147: it is always overwritten: when the loop begins, the flag is set. -/
theorem C147_start_lost (s s' : St) (hp : s.pc = .setRunning) (h : step s .thread = some s') : s'.pc = .stamp ∧ s'.isRunning = true := by
  simp only [step, thread, hp, Option.some.injEq] at h
  subst h
  exact ⟨rfl, rfl⟩

/-- C147 fails for the other calls: `start` and `join` (hence `stop(true)`) end the program. -/
theorem C147_terminates (cb : Callbacks) (self : Nat) (s : RSt) (hd : s.dead = false) (hw : s.base.inCallback = true)
    (hi : s.base.cpc self = .idle) (hc : cb s.base s.made = some .join ∨ cb s.base s.made = some .start) :
    stepR cb self s .thread = some { s with dead := true } := by
  rcases hc with hc | hc <;> simp [stepR, threadR, hd, hw, hi, hc]

/-- C147 fails for the destructor: a timer that is destroyed by its own callback waits for ever for the mutex that its thread holds. -/
theorem C147_deadlock (cb : Callbacks) (self ms : Nat) (s : RSt) (h : ReachR cb self ms s) (hw : s.base.inCallback = true)
    (hc : s.base.cpc self = .deleteLock) : stepR cb self s .thread = none ∧ ∀ t, t ≠ self → s.base.mtx ≠ some (.client t) := by
  have ho := own_inv (reachR_reach h)
  have hm : s.base.mtx = some .thread := by
    refine ho.1.1 ?_
    cases hp : s.base.pc <;> simp [St.inCallback, hp] at hw <;> rfl
  refine ⟨?_, fun t _ => by rw [hm]; simp⟩
  simp only [stepR, threadR, hw, hc, if_true, reduceCtorEq, if_false, client, hm, Option.map_none]
  split <;> rfl

end Verif.Timer
