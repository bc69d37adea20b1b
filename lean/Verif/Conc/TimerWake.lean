import Verif.Conc.TimerProps

/-
C128: `stop` and `notify` wake the timer thread (timer.h:53-60, 116-119, 132-134).  The transition system of `TimerModel`
with the notifications added: `notify_one` reaches the thread if it is asleep at that moment, and is lost otherwise.
-/

namespace Verif.Timer

def CPc.notifying : CPc → Bool
  | .stopNotify | .forcedNotify => true
  | _ => false

/-- The state, and whether the sleeping thread has been notified (it will wake up without waiting for the time). -/
abbrev Sig := St × Bool

def sstep (x : Sig) (a : Act) : Option Sig :=
  (step x.1 a).map fun s' => (s', match a with
    | .client t => x.2 || ((x.1.cpc t).notifying && x.1.pc == .waiting)
    | .wake | .timeout => false
    | _ => x.2)

def sexec (x : Sig) : List Act → Option Sig
  | [] => some x
  | a :: as => (sstep x a).bind fun x' => sexec x' as

def SReach (ms : Nat) (x : Sig) : Prop := ∃ sched, sexec (init ms, false) sched = some x

/-- The full claim of C128 for `stop`: once it has taken effect and notified, the thread does not sleep, unless notified. -/
def C128_stop_statement : Prop :=
  ∀ ms x, SReach ms x → ∀ t x1, x.1.cpc t = .stopNotify → Stopped x.1 → sstep x (.client t) = some x1 →
    ∀ sched x2, .start ∉ sched → sexec x1 sched = some x2 → x2.1.pc = .waiting → x2.2 = true

/-- The full claim of C128 for `notify`: once it has notified, and until the next call of `on_interval`, the same. -/
def C128_notify_statement : Prop :=
  ∀ ms x, SReach ms x → ∀ t x1, x.1.cpc t = .forcedNotify → x.1.forced = true → sstep x (.client t) = some x1 →
    ∀ sched x2, .start ∉ sched → sexec x1 sched = some x2 → intervals x2.1.log = intervals x.1.log →
    x2.1.pc = .waiting → x2.2 = true

theorem sexec_cons {x x' : Sig} {a : Act} {as : List Act} (h : sstep x a = some x') : sexec x (a :: as) = sexec x' as := by
  simp [sexec, h]

theorem sstep_step {x x' : Sig} {a : Act} (h : sstep x a = some x') : step x.1 a = some x'.1 := by
  unfold sstep at h
  cases hs : step x.1 a with
  | none => rw [hs] at h; cases h
  | some s => rw [hs] at h; simp only [Option.map_some, Option.some.injEq] at h; rw [← h]

theorem sexec_exec : ∀ (sched : List Act) {x x' : Sig}, sexec x sched = some x' → exec x.1 sched = some x'.1 := by
  intro sched
  induction sched with
  | nil => intro x x' h; injection h with h; subst h; rfl
  | cons a as ih =>
    intro x x' h
    cases h1 : sstep x a with
    | none => simp [sexec, h1] at h
    | some x1 => rw [sexec_cons h1] at h; rw [exec_cons (sstep_step h1)]; exact ih h

theorem sexec_ind {P : Sig → Prop} {A : Act → Prop} (hstep : ∀ x a x', A a → P x → sstep x a = some x' → P x') :
    ∀ (sched : List Act) (x x' : Sig), (∀ a ∈ sched, A a) → P x → sexec x sched = some x' → P x' := by
  intro sched
  induction sched with
  | nil => intro x x' _ hp hs; injection hs with hs; subst hs; exact hp
  | cons a as ih =>
    intro x x' ha hp hs
    cases h1 : sstep x a with
    | none => simp [sexec, h1] at hs
    | some x1 =>
      rw [sexec_cons h1] at hs
      exact ih x1 x' (fun b hb => ha b (by simp [hb])) (hstep x a x1 (ha a (by simp)) hp h1) hs

/-- Where the thread goes. -/
theorem pc_step {s s' : St} {a : Act} (hs : step s a = some s') :
    s'.pc = s.pc ∨ (a = .thread ∧ thread s = some s') ∨ (a = .start ∧ s'.pc = .enter) ∨
    (∃ v, a = .ret v ∧ s.pc = .inCall ∧ s'.pc = .clearForced) ∨
    (s.pc = .waiting ∧ (a = .timeout ∧ s'.pc = .relock true ∨ a = .wake ∧ s'.pc = .relock false)) := by
  cases a with
  | thread => exact .inr (.inl ⟨rfl, hs⟩)
  | client t =>
    simp only [step, client] at hs
    split at hs
    all_goals (try split at hs)
    all_goals (first | cases hs; done | (injection hs with hs; subst hs))
    all_goals exact .inl rfl
  | tick d => injection hs with hs; subst hs; exact .inl rfl
  | adjust d => injection hs with hs; subst hs; exact .inl rfl
  | start =>
    simp only [step] at hs
    split at hs
    · injection hs with hs; subst hs; exact .inr (.inr (.inl ⟨rfl, rfl⟩))
    · cases hs
  | ret v =>
    simp only [step] at hs
    split at hs
    · rename_i hw; injection hs with hs; subst hs; exact .inr (.inr (.inr (.inl ⟨v, rfl, hw, rfl⟩)))
    · cases hs
  | timeout =>
    simp only [step] at hs
    split at hs
    · rename_i hw; injection hs with hs; subst hs; exact .inr (.inr (.inr (.inr ⟨hw.1, .inl ⟨rfl, rfl⟩⟩)))
    · cases hs
  | wake =>
    simp only [step] at hs
    split at hs
    · rename_i hw; injection hs with hs; subst hs; exact .inr (.inr (.inr (.inr ⟨hw, .inr ⟨rfl, rfl⟩⟩)))
    · cases hs
  | call t op =>
    simp only [step] at hs
    split at hs
    · injection hs with hs; subst hs; exact .inl rfl
    · cases hs

/-- A step that leaves the thread where it is leaves it notified. -/
theorem signal_keep {x x' : Sig} {a : Act} (hs : sstep x a = some x') (hpc : x'.1.pc = x.1.pc) (h : x.2 = true) :
    x'.2 = true := by
  have h1 := sstep_step hs
  unfold sstep at hs
  rw [h1] at hs
  simp only [Option.map_some, Option.some.injEq] at hs
  rw [← hs]
  cases a with
  | timeout =>
    simp only [step] at h1
    split at h1
    · rename_i hw; injection h1 with h1; rw [← h1, hw.1] at hpc; cases hpc
    · cases h1
  | wake =>
    simp only [step] at h1
    split at h1
    · rename_i hw; injection h1 with h1; rw [← h1, hw] at hpc; cases hpc
    · cases h1
  | client t => simp [h]
  | _ => exact h

/-- Only a sleeping thread is notified. -/
theorem signal_waiting {x x' : Sig} {a : Act} (h : x.2 = true → x.1.pc = .waiting) (hs : sstep x a = some x') :
    x'.2 = true → x'.1.pc = .waiting := by
  have h1 := sstep_step hs
  unfold sstep at hs
  rw [h1] at hs
  simp only [Option.map_some, Option.some.injEq] at hs
  rw [← hs]
  cases a with
  | timeout => intro hh; cases hh
  | wake => intro hh; cases hh
  | thread =>
    intro hh
    have hw := h hh
    simp [step, thread, hw] at h1
  | start =>
    intro hh
    have hw := h hh
    simp [step, hw] at h1
  | ret v =>
    intro hh
    have hw := h hh
    simp [step, hw] at h1
  | client t =>
    intro hh
    have hw : x.1.pc = .waiting := by
      simp only [Bool.or_eq_true, Bool.and_eq_true, beq_iff_eq] at hh
      rcases hh with hh | hh
      · exact h hh
      · exact hh.2
    rcases pc_step h1 with hp | ⟨hp, _⟩ | ⟨hp, _⟩ | ⟨v, hp, _⟩ | ⟨_, ⟨hp, _⟩ | ⟨hp, _⟩⟩
    · rw [hp, hw]
    all_goals cases hp
  | tick d => injection h1 with h1; rw [← h1]; exact h
  | adjust d => injection h1 with h1; rw [← h1]; exact h
  | call t op =>
    simp only [step] at h1
    split at h1
    · injection h1 with h1; rw [← h1]; exact h
    · cases h1

theorem signal_inv {ms : Nat} {x : Sig} (h : SReach ms x) : x.2 = true → x.1.pc = .waiting := by
  obtain ⟨sched, hs⟩ := h
  exact sexec_ind (A := fun _ => True) (P := fun x => x.2 = true → x.1.pc = .waiting)
    (fun x a x' _ h hs => signal_waiting h hs) sched _ _ (fun _ _ => trivial) (fun h => by cases h) hs

/-! ### stop -/

/-- Between the test of `_is_running` and the sleep. -/
def Pc.window : Pc → Bool
  | .lock | .wait => true
  | _ => false

structure Heard (x : Sig) : Prop where
  stopped : Stopped x.1
  pc      : x.1.pc.window = false
  sig     : x.1.pc = .waiting → x.2 = true

theorem heard_step {x x' : Sig} {a : Act} (ha : a ≠ .start) (h : Heard x) (hs : sstep x a = some x') : Heard x' := by
  have h1 := sstep_step hs
  have h2 := (stopped_step ha h.stopped h1).1
  have hr := h.stopped.run
  rcases pc_step h1 with hp | ⟨rfl, hp⟩ | ⟨rfl, _⟩ | ⟨v, rfl, _, hp⟩ | ⟨hw, ⟨rfl, hp⟩ | ⟨rfl, hp⟩⟩
  · exact ⟨h2, hp ▸ h.pc, fun hw => signal_keep hs hp (h.sig (hp ▸ hw))⟩
  · have hpc := h.pc
    refine ⟨h2, ?_, ?_⟩
    · unfold thread at hp
      cases hw : x.1.pc <;> rw [hw] at hp hpc <;> simp only [Pc.window, reduceCtorEq] at hp hpc
      all_goals (try simp only [hr, Bool.false_eq_true, if_false] at hp)
      all_goals (try split at hp)
      all_goals (first | cases hp; done | (injection hp with hp))
      all_goals (try split at hp)
      all_goals (rw [← hp])
      all_goals (first | rfl | (simp only [St.goto]; split <;> rfl))
    · intro hw'
      exfalso
      unfold thread at hp
      cases hw : x.1.pc <;> rw [hw] at hp hpc <;> simp only [Pc.window, reduceCtorEq] at hp hpc
      all_goals (try simp only [hr, Bool.false_eq_true, if_false] at hp)
      all_goals (try split at hp)
      all_goals (first | cases hp; done | (injection hp with hp))
      all_goals (try split at hp)
      all_goals (rw [← hp] at hw'; simp only [St.goto, St.emit, reduceCtorEq] at hw')
      all_goals (split at hw' <;> cases hw')
  · exact absurd rfl ha
  · exact ⟨h2, by rw [hp]; rfl, fun hh => by rw [hp] at hh; cases hh⟩
  · exact ⟨h2, by rw [hp]; rfl, fun hh => by rw [hp] at hh; cases hh⟩
  · exact ⟨h2, by rw [hp]; rfl, fun hh => by rw [hp] at hh; cases hh⟩

theorem stopNotify_step {x x1 : Sig} {t : Nat} (hc : x.1.cpc t = .stopNotify) (h1 : sstep x (.client t) = some x1) :
    x1 = (x.1.c t .idle, x.2 || x.1.pc == .waiting) := by
  simp only [sstep, step, client, hc, Option.map_some, Option.some.injEq, CPc.notifying, Bool.true_and] at h1
  exact h1.symm

/-- **C128** (partial), `stop`.  Full claim: `C128_stop_statement`.  Proved: it holds for every notification that does not come
between the thread's test of `_is_running` and its falling asleep.  Missing: that moment, for which the claim is false
(`C128_stop_exact`). -/
theorem C128_stop_partial (x : Sig) (t : Nat) (x1 : Sig) (hc : x.1.cpc t = .stopNotify) (hst : Stopped x.1)
    (hw : x.1.pc ≠ .lock ∧ x.1.pc ≠ .wait) (h1 : sstep x (.client t) = some x1) (sched : List Act) (x2 : Sig)
    (hn : .start ∉ sched) (h2 : sexec x1 sched = some x2) (h3 : x2.1.pc = .waiting) : x2.2 = true := by
  refine (sexec_ind (A := fun a => a ≠ .start) (P := Heard) (fun x a x' ha h hs => heard_step ha h hs) sched x1 x2
    (fun a ha e => hn (e ▸ ha)) ?_ h2).sig h3
  rw [stopNotify_step hc h1]
  refine ⟨⟨hst.run, hst.pc⟩, ?_, fun hh => by simp [show x.1.pc = .waiting from hh]⟩
  change x.1.pc.window = false
  cases hp : x.1.pc <;> simp [hp, Pc.window] at hw ⊢

/-- **C128** exactly, for `stop`: as long as no client holds the mutex, the notification is lost if and only if it comes
between the test of the flag and the sleep; then the thread goes to sleep for the whole remaining time. -/
theorem C128_stop_exact (ms : Nat) (x : Sig) (hx : SReach ms x) (t : Nat) (x1 : Sig) (hc : x.1.cpc t = .stopNotify)
    (hst : Stopped x.1) (hm : ∀ u, x.1.mtx ≠ some (.client u)) (h1 : sstep x (.client t) = some x1) :
    (∃ sched x2, .start ∉ sched ∧ sexec x1 sched = some x2 ∧ x2.1.pc = .waiting ∧ x2.2 = false) ↔
      x.1.pc = .lock ∨ x.1.pc = .wait := by
  constructor
  · rintro ⟨sched, x2, hn, h2, h3, h4⟩
    by_contra hw
    rw [not_or] at hw
    rw [C128_stop_partial x t x1 hc hst hw h1 sched x2 hn h2 h3] at h4
    cases h4
  · intro hw
    have hsig : x.2 = false := by
      cases hs : x.2 with
      | false => rfl
      | true => rw [signal_inv hx hs] at hw; simp at hw
    have hown := (own_inv (s := x.1) ⟨_, sexec_exec _ hx.choose_spec⟩)
    rw [stopNotify_step hc h1, hsig]
    rcases hw with hw | hw
    · have hmt : x.1.mtx = none := by
        cases hmx : x.1.mtx with
        | none => rfl
        | some o =>
          cases o with
          | client u => exact absurd hmx (hm u)
          | thread => have := hown.1.2 hmx; rw [hw] at this; cases this
      refine ⟨[.thread, .thread], ({ x.1.c t .idle with pc := .waiting, mtx := none, deadline := x.1.now + x.1.rem * K }, false),
        by simp, ?_, ?_, ?_⟩
      · simp [sexec, sstep, step, thread, St.c, St.goto, hw, hmt]
      · rfl
      · rfl
    · refine ⟨[.thread], ({ x.1.c t .idle with pc := .waiting, mtx := none, deadline := x.1.now + x.1.rem * K }, false),
        by simp, ?_, ?_, ?_⟩
      · simp [sexec, sstep, step, thread, St.c, St.goto, hw]
      · rfl
      · rfl

/-- A timer of one hour; `stop` comes just before the thread falls asleep. -/
def missed : List Act := [.start] ++ List.replicate 8 .thread ++ [.call 7 .stop, .client 7, .client 7, .client 7, .thread]

set_option synthInstance.maxSize 1000 in
/-- C128 fails for `stop`: the thread sleeps for an hour although the timer has been stopped; `join` and the destructor
wait for it. -/
theorem C128_stop_counterexample : (∃ x, SReach 3600000 x ∧ x.1.isRunning = false ∧ x.1.cpc 7 = .idle ∧ x.1.pc = .waiting ∧
    x.2 = false ∧ x.1.now = 0 ∧ x.1.deadline = 3600000 * K) ∧ ¬ C128_stop_statement := by
  refine ⟨?_, fun h => ?_⟩
  · have hk : (sexec (init 3600000, false) missed).map (fun x => (x.1.isRunning, x.1.cpc 7, x.1.pc, x.2, x.1.now, x.1.deadline)) =
        some (false, .idle, .waiting, false, 0, 3600000 * K) := by decide +kernel
    cases hs : sexec (init 3600000, false) missed with
    | none => rw [hs] at hk; cases hk
    | some x =>
      rw [hs] at hk
      simp only [Option.map_some, Option.some.injEq, Prod.mk.injEq] at hk
      exact ⟨x, ⟨_, hs⟩, hk⟩
  · have hk : (sexec (init 100, false) ([.start] ++ List.replicate 8 .thread ++ [.call 7 .stop, .client 7, .client 7])).map
        (fun x => (x.1.isRunning, x.1.cpc 7, x.1.pc, x.1.mtx)) = some (false, .stopNotify, .wait, some .thread) := by
      decide +kernel
    cases hs : sexec (init 100, false) ([.start] ++ List.replicate 8 .thread ++ [.call 7 .stop, .client 7, .client 7]) with
    | none => rw [hs] at hk; cases hk
    | some x =>
      rw [hs] at hk
      simp only [Option.map_some, Option.some.injEq, Prod.mk.injEq] at hk
      obtain ⟨k1, k2, k3, k4⟩ := hk
      have hst : Stopped x.1 := ⟨k1, by rw [k3]; rfl⟩
      have h1 : sstep x (.client 7) = some (x.1.c 7 .idle, x.2 || x.1.pc == .waiting) := by
        simp [sstep, step, client, k2, CPc.notifying]
      obtain ⟨sched, x2, e1, e2, e3, e4⟩ := (C128_stop_exact 100 x ⟨_, hs⟩ 7 _ k2 hst (by rw [k4]; simp) h1).2 (.inr k3)
      rw [h 100 x ⟨_, hs⟩ 7 _ k2 hst h1 sched x2 e1 e2 e3] at e4
      cases e4

/-! ### notify -/

/-- Where the thread will look at the request before it sleeps again, or will not sleep again. -/
def Attentive (s : St) : Prop :=
  match s.pc with
  | .waiting | .relock _ | .testRunning _ | .testForced _ | .call | .stopLock | .stopBody | .stopUnlock | .finish | .finished
  | .idle => True
  | .unlock | .loopTest => s.isRunning = false
  | _ => False

structure Asked (x : Sig) : Prop where
  forced : x.1.forced = true
  att    : Attentive x.1
  sig    : x.1.pc = .waiting → x.2 = true

theorem attentive_keep {s s' : St} (h : Attentive s) (hp : s'.pc = s.pc) (hr : s.isRunning = false → s'.isRunning = false) :
    Attentive s' := by
  unfold Attentive at h ⊢
  rw [hp]
  cases hw : s.pc <;> rw [hw] at h <;> first | exact h | exact hr h

/-- Only the thread sets `_is_running`. -/
theorem run_keep {s s' : St} {a : Act} (ha : a ≠ .thread) (hs : step s a = some s') (hr : s.isRunning = false) :
    s'.isRunning = false := by
  cases a with
  | thread => exact absurd rfl ha
  | client t =>
    simp only [step, client] at hs
    split at hs
    all_goals (try split at hs)
    all_goals (first | cases hs; done | (injection hs with hs; subst hs))
    all_goals (first | exact hr | rfl)
  | tick d => injection hs with hs; subst hs; exact hr
  | adjust d => injection hs with hs; subst hs; exact hr
  | _ =>
    simp only [step] at hs
    split at hs
    · injection hs with hs; subst hs; exact hr
    · cases hs

theorem asked_step {x x' : Sig} {a : Act} (ha : a ≠ .start) (h : Asked x) (hs : sstep x a = some x')
    (hi : intervals x'.1.log = intervals x.1.log) : Asked x' := by
  have h1 := sstep_step hs
  have hf := h.forced
  have hatt := h.att
  have hcl : x.1.pc.clearing = false := by
    unfold Attentive at hatt
    cases hw : x.1.pc <;> rw [hw] at hatt <;> first | rfl | exact hatt.elim
  have h2 := forced_step ⟨hf, hcl⟩ h1 hi
  rcases pc_step h1 with hp | ⟨rfl, hp⟩ | ⟨rfl, _⟩ | ⟨v, rfl, hw, hp⟩ | ⟨hw, ⟨rfl, hp⟩ | ⟨rfl, hp⟩⟩
  · by_cases hth : a = .thread
    · subst hth
      exfalso
      simp only [step, thread] at h1
      unfold Attentive at hatt
      cases hw : x.1.pc <;> rw [hw] at h1 hatt hp <;> simp only [reduceCtorEq] at h1 hatt
      all_goals (try split at h1)
      all_goals (first | cases h1; done | (injection h1 with h1))
      all_goals (try split at h1)
      all_goals (rw [← h1] at hp; simp only [St.goto, St.emit, reduceCtorEq] at hp)
      all_goals (split at hp <;> cases hp)
    · exact ⟨h2.1, attentive_keep hatt hp (run_keep hth h1), fun hw => signal_keep hs hp (h.sig (hp ▸ hw))⟩
  · have key : Attentive x'.1 ∧ x'.1.pc ≠ .waiting := by
      unfold Attentive at hatt
      unfold thread at hp
      cases hw : x.1.pc <;> rw [hw] at hp hatt <;> simp only [reduceCtorEq] at hp hatt
      case loopTest =>
        rw [hatt] at hp; injection hp with hp; rw [← hp]; exact ⟨trivial, by simp [St.goto]⟩
      case testRunning tmo =>
        injection hp with hp; rw [← hp]
        cases hr : x.1.isRunning with
        | true => exact ⟨trivial, by simp [St.goto]⟩
        | false => exact ⟨hr, by simp [St.goto]⟩
      case testForced tmo =>
        rw [hf, Bool.or_true, if_pos rfl] at hp; injection hp with hp; rw [← hp]
        exact ⟨trivial, by simp [St.goto]⟩
      case call => injection hp with hp; rw [← hp] at hi; simp [St.emit, St.goto, intervals] at hi
      case unlock => injection hp with hp; rw [← hp]; exact ⟨hatt, by simp [St.goto]⟩
      case relock =>
        split at hp
        · injection hp with hp; rw [← hp]; exact ⟨trivial, by simp [St.goto]⟩
        · cases hp
      case stopLock =>
        split at hp
        · injection hp with hp; rw [← hp]; exact ⟨trivial, by simp [St.goto]⟩
        · cases hp
      case stopBody => injection hp with hp; rw [← hp]; split <;> exact ⟨trivial, by simp [St.goto, St.emit]⟩
      case stopUnlock => injection hp with hp; rw [← hp]; exact ⟨trivial, by simp [St.goto]⟩
      case finish => injection hp with hp; rw [← hp]; exact ⟨trivial, by simp [St.goto, St.emit]⟩
    exact ⟨h2.1, key.1, fun hh => absurd hh key.2⟩
  · exact absurd rfl ha
  · rw [hw] at hcl; cases hcl
  · exact ⟨h2.1, by unfold Attentive; rw [hp]; trivial, fun hh => by rw [hp] at hh; cases hh⟩
  · exact ⟨h2.1, by unfold Attentive; rw [hp]; trivial, fun hh => by rw [hp] at hh; cases hh⟩

theorem asked_exec : ∀ (sched : List Act) {x x' : Sig}, .start ∉ sched → Asked x → sexec x sched = some x' →
    intervals x'.1.log = intervals x.1.log → Asked x' := by
  intro sched
  induction sched with
  | nil => intro x x' _ h hs _; injection hs with hs; subst hs; exact h
  | cons a as ih =>
    intro x x' hn h hs hi
    cases h1 : sstep x a with
    | none => simp [sexec, h1] at hs
    | some x1 =>
      rw [sexec_cons h1] at hs
      have m1 := intervals_mono (sstep_step h1)
      have m2 := exec_mono as (sexec_exec as hs)
      exact ih (fun e => hn (by simp [e])) (asked_step (fun e => hn (by simp [e])) h h1 (by omega)) hs (by omega)

/-- **C128** (partial), `notify`.  Full claim: `C128_notify_statement`.  Proved: it holds when the thread is asleep at that
moment, or has woken up and has not yet tested the request.  Missing: the rest of the loop, for which the claim is false
(`C128_notify_counterexample`). -/
theorem C128_notify_partial (x : Sig) (t : Nat) (x1 : Sig) (hc : x.1.cpc t = .forcedNotify) (hf : x.1.forced = true)
    (hw : x.1.pc = .waiting ∨ ∃ tmo, x.1.pc = .relock tmo ∨ x.1.pc = .testRunning tmo ∨ x.1.pc = .testForced tmo)
    (h1 : sstep x (.client t) = some x1) (sched : List Act) (x2 : Sig) (hn : .start ∉ sched) (h2 : sexec x1 sched = some x2)
    (hi : intervals x2.1.log = intervals x.1.log) (h3 : x2.1.pc = .waiting) : x2.2 = true := by
  have e : x1 = (x.1.c t .idle, x.2 || x.1.pc == .waiting) := by
    simp only [sstep, step, client, hc, Option.map_some, Option.some.injEq, CPc.notifying, Bool.true_and] at h1
    exact h1.symm
  refine (asked_exec sched hn ?_ h2 (by rw [hi, e]; rfl)).sig h3
  rw [e]
  refine ⟨hf, ?_, fun hh => by simp [show x.1.pc = .waiting from hh]⟩
  change Attentive x.1
  unfold Attentive
  rcases hw with hw | ⟨tmo, hw | hw | hw⟩ <;> rw [hw] <;> trivial

set_option synthInstance.maxSize 1000 in
/-- C128 fails for `notify`: a request that comes just before the thread falls asleep is served an hour later. -/
theorem C128_notify_counterexample : ¬ C128_notify_statement := by
  intro h
  have hk : (sexec (init 3600000, false) ([.start] ++ List.replicate 8 .thread ++ [.call 7 .notify, .client 7])).map
      (fun x => (x.1.forced, x.1.cpc 7, intervals x.1.log, (sexec x [.client 7, .thread]).map
        fun x2 => (intervals x2.1.log, x2.1.pc, x2.2))) =
      some (true, .forcedNotify, 0, some (0, .waiting, false)) := by decide +kernel
  cases hs : sexec (init 3600000, false) ([.start] ++ List.replicate 8 .thread ++ [.call 7 .notify, .client 7]) with
  | none => rw [hs] at hk; cases hk
  | some x =>
    rw [hs] at hk
    simp only [Option.map_some, Option.some.injEq, Prod.mk.injEq] at hk
    obtain ⟨k1, k2, k3, k4⟩ := hk
    cases h1 : sstep x (.client 7) with
    | none => simp [sexec, h1] at k4
    | some x1 =>
      rw [sexec_cons h1] at k4
      cases h2 : sexec x1 [.thread] with
      | none => rw [h2] at k4; cases k4
      | some x2 =>
        rw [h2] at k4
        simp only [Option.map_some, Option.some.injEq, Prod.mk.injEq] at k4
        obtain ⟨k5, k6, k7⟩ := k4
        rw [h _ x ⟨_, hs⟩ 7 x1 k2 k1 h1 [.thread] x2 (by simp) h2 (by omega) k6] at k7
        cases k7

set_option synthInstance.maxSize 1000 in
/-- The good case: the thread is asleep when `stop` notifies. -/
example : (sexec (init 100, false) ([.start] ++ List.replicate 9 .thread ++ [.call 7 .stop, .client 7, .client 7, .client 7])).map
    (fun x => (x.1.isRunning, x.1.pc, x.2)) = some (false, .waiting, true) := by decide +kernel

end Verif.Timer
