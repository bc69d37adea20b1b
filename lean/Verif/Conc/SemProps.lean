import Verif.Conc.SemInv
import Mathlib.Algebra.BigOperators.Group.Finset.Basic
import Mathlib.Algebra.Order.BigOperators.Group.Finset
import Mathlib.Algebra.BigOperators.Group.Finset.Piecewise
import Mathlib.Data.Finset.Dedup

/-
C88-C92 and C108: the semaphore.
-/

namespace Verif.Sem

/-! ### Observations, in terms of the log only -/

def Event.tid : Event → Nat
  | .lockPass t | .lockRet t | .lockThrow t | .tryRet t _ | .unlockCall t | .unlockDone t _ | .setDone t _
  | .countRet t _ | .maxRet t _ => t

/-- A resource was acquired. -/
def Event.isAcq : Event → Bool
  | .lockRet _ | .tryRet _ true => true
  | _ => false

/-- A resource was given back. -/
def Event.isFree : Event → Bool
  | .unlockDone _ true => true
  | _ => false

def Event.isCall : Event → Bool
  | .unlockCall _ => true
  | _ => false

def Event.isDone : Event → Bool
  | .unlockDone _ _ => true
  | _ => false

def Event.isSet : Event → Bool
  | .setDone _ _ => true
  | _ => false

/-- The number of resources thread `t` holds: acquisitions that returned minus calls of `unlock`. -/
def acquired (log : List Event) (t : Nat) : Nat := log.countP fun e => e.isAcq && e.tid == t
def unlocks (log : List Event) (t : Nat) : Nat := log.countP fun e => e.isCall && e.tid == t

/-! ### The atomic semaphore along a log -/

theorem absStep_cases {a a' : Abs} {e : Event} (h : absStep a e = some a') :
    (e.isAcq = true ∧ e.isFree = false ∧ e.isSet = false ∧ a.count < a.avail ∧ a' = { a with count := a.count + 1 }) ∨
    (e.isAcq = false ∧ e.isFree = true ∧ e.isSet = false ∧ 0 < a.count ∧ a' = { a with count := a.count - 1 }) ∨
    (e.isAcq = false ∧ e.isFree = false ∧ e.isSet = true ∧ a'.count = a.count) ∨
    (e.isAcq = false ∧ e.isFree = false ∧ e.isSet = false ∧ a' = a) := by
  cases e with
  | lockPass t => simp only [absStep] at h; split at h <;> simp_all [Event.isAcq, Event.isFree, Event.isSet]
  | lockRet t =>
    simp only [absStep] at h
    split at h
    · rename_i h0
      injection h with h
      exact .inl ⟨rfl, rfl, rfl, h0, h.symm⟩
    · cases h
  | lockThrow t => simp only [absStep] at h; split at h <;> simp_all [Event.isAcq, Event.isFree, Event.isSet]
  | tryRet t b =>
    simp only [absStep] at h
    split at h
    · rename_i h0
      cases b
      · cases h
      · injection h with h
        exact .inl ⟨rfl, rfl, rfl, h0, h.symm⟩
    · cases b
      · injection h with h
        exact .inr (.inr (.inr ⟨rfl, rfl, rfl, h.symm⟩))
      · cases h
  | unlockCall t => simp_all [absStep, Event.isAcq, Event.isFree, Event.isSet]
  | unlockDone t b =>
    simp only [absStep] at h
    split at h
    · cases b
      · injection h with h
        exact .inr (.inr (.inr ⟨rfl, rfl, rfl, h.symm⟩))
      · cases h
    · rename_i h0
      cases b
      · cases h
      · injection h with h
        exact .inr (.inl ⟨rfl, rfl, rfl, by omega, h.symm⟩)
  | setDone t n =>
    simp only [absStep] at h
    injection h with h
    subst h
    exact .inr (.inr (.inl ⟨rfl, rfl, rfl, rfl⟩))
  | countRet t v => simp only [absStep] at h; split at h <;> simp_all [Event.isAcq, Event.isFree, Event.isSet]
  | maxRet t v => simp_all [absStep, Event.isAcq, Event.isFree, Event.isSet]

/-- The counter is the number of acquisitions minus the number of effective unlocks. -/
theorem replay_count {n : Nat} : ∀ {log : List Event} {a : Abs}, replay n log = some a →
    log.countP Event.isAcq = a.count + log.countP Event.isFree := by
  intro log
  induction log with
  | nil => intro a h; injection h with h; subst h; rfl
  | cons e log ih =>
    intro a h
    simp only [replay] at h
    cases h0 : replay n log with
    | none => rw [h0] at h; cases h
    | some b =>
      rw [h0] at h
      have := ih h0
      rw [List.countP_cons, List.countP_cons]
      rcases absStep_cases h with ⟨h1, h2, -, h3, h4⟩ | ⟨h1, h2, -, h3, h4⟩ | ⟨h1, h2, -, h3⟩ | ⟨h1, h2, -, h3⟩
      · simp [h1, h2, h4]; omega
      · simp [h1, h2, h4]; omega
      · simp [h1, h2, h3]; omega
      · simp [h1, h2, h3]; omega

/-- With a fixed number of resources, at most that many are allocated. -/
theorem replay_fixed {n : Nat} : ∀ {log : List Event} {a : Abs}, replay n log = some a → (∀ e ∈ log, e.isSet = false) →
    a.avail = n ∧ a.count ≤ n := by
  intro log
  induction log with
  | nil => intro a h _; injection h with h; subst h; exact ⟨rfl, Nat.zero_le _⟩
  | cons e log ih =>
    intro a h hs
    simp only [replay] at h
    cases h0 : replay n log with
    | none => rw [h0] at h; cases h
    | some b =>
      rw [h0] at h
      obtain ⟨i1, i2⟩ := ih h0 (fun x hx => hs x (by simp [hx]))
      have he := hs e (by simp)
      rcases absStep_cases h with ⟨h1, h2, -, h3, h4⟩ | ⟨h1, h2, -, h3, h4⟩ | ⟨h1, h2, h3, _⟩ | ⟨h1, h2, -, h3⟩
      · rw [h4]; exact ⟨i1, by simp only; omega⟩
      · rw [h4]; exact ⟨i1, by simp only; omega⟩
      · rw [he] at h3; cases h3
      · rw [h3]; exact ⟨i1, i2⟩

theorem replay_split {n : Nat} : ∀ {l1 l2 : List Event} {a : Abs}, replay n (l1 ++ l2) = some a →
    ∃ b, replay n l2 = some b := by
  intro l1
  induction l1 with
  | nil => intro l2 a h; exact ⟨a, h⟩
  | cons e l1 ih =>
    intro l2 a h
    simp only [List.cons_append, replay] at h
    cases h0 : replay n (l1 ++ l2) with
    | none => rw [h0] at h; cases h
    | some b => exact ih h0

/-- Every observation of a reachable state is one the atomic semaphore allows at that moment. -/
theorem observed {n : Nat} (hn : n < W) {s : St} (h : Reach n s) {l1 l2 : List Event} {e : Event}
    (hl : s.log = l1 ++ e :: l2) : ∃ a a', replay n l2 = some a ∧ absStep a e = some a' := by
  obtain ⟨a, hi⟩ := reach_inv hn h
  have hr := hi.log
  rw [hl] at hr
  obtain ⟨b, hb⟩ := replay_split hr
  simp only [replay] at hb
  cases h0 : replay n l2 with
  | none => rw [h0] at hb; cases hb
  | some c => rw [h0] at hb; exact ⟨c, b, rfl, hb⟩

/-- The members between the effect of the atomic semaphore and the release of the mutex. -/
theorem count_le {n : Nat} {s : St} {a : Abs} (h : Inv n s a) :
    s.count ≤ a.count ∨ (s.count = a.count + 1 ∧ a.count < a.avail) := by
  cases hm : s.mtx with
  | none => left; exact Nat.le_of_eq (h.free hm).1
  | some t =>
    have hr := h.busy t hm
    have ho := (h.owner t).mpr hm
    cases hp : s.pc t <;> rw [hp] at hr ho <;> simp only [Owns] at ho
    case tryRelease b => cases b <;> simp only [R] at hr <;> omega
    case unRelease b => cases b <;> simp only [R] at hr <;> omega
    all_goals (first | (simp only [R] at hr; omega) | cases ho)

/-! ### C88 -/

/-- C88: while no change of the number of resources has taken effect, `_count` never exceeds it. -/
theorem C88_limit (n : Nat) (hn : n < W) (s : St) (h : Reach n s) (hfix : ∀ e ∈ s.log, e.isSet = false) :
    s.count ≤ n := by
  obtain ⟨a, hi⟩ := reach_inv hn h
  obtain ⟨h1, h2⟩ := replay_fixed hi.log hfix
  rcases count_le hi with h3 | h3 <;> omega

/-! #### What each thread does, in order -/

inductive Phase where
  | idle | inLock | inUnlock
  deriving DecidableEq, Repr

/-- After an observation by a thread. -/
def Event.phase : Event → Phase
  | .lockPass _ => .inLock
  | .unlockCall _ => .inUnlock
  | _ => .idle

/-- Which observations a thread can make next. -/
def allowed : Phase → Event → Bool
  | .inLock, .lockRet _ => true
  | .inLock, _ => false
  | .inUnlock, .unlockDone _ _ => true
  | .inUnlock, _ => false
  | .idle, .lockRet _ => false
  | .idle, .unlockDone _ _ => false
  | .idle, _ => true

/-- What thread `t` is doing, according to the log. -/
def phase : List Event → Nat → Phase
  | [], _ => .idle
  | e :: l, t => if e.tid = t then e.phase else phase l t

/-- Every thread observes a `lock` that passed the check as a return, and the result of each `unlock` it called, before
anything else. -/
def Ordered : List Event → Prop
  | [] => True
  | e :: l => allowed (phase l e.tid) e = true ∧ Ordered l

def pcPhase : Pc → Phase
  | .lockLoop | .waiting | .woken | .lockLoad | .lockStore _ | .lockRelease => .inLock
  | .unEnter | .unTest | .unLoad | .unStore _ | .unRelease _ => .inUnlock
  | _ => .idle

def PInv (s : St) : Prop := (∀ t, phase s.log t = pcPhase (s.pc t)) ∧ Ordered s.log

theorem pinv_silent {s s' : St} (h : PInv s) (t : Nat) (p : Pc) (hp : pcPhase p = pcPhase (s.pc t))
    (hpc : s'.pc = (s.at t p).pc) (hl : s'.log = s.log) : PInv s' := by
  refine ⟨fun u => ?_, by rw [hl]; exact h.2⟩
  rw [hl, hpc, h.1 u]
  simp only [St.at]
  by_cases hu : u = t
  · subst hu; simp [hp]
  · simp [hu]

theorem pinv_event {s s' : St} (h : PInv s) (t : Nat) (p : Pc) (e : Event) (he : e.tid = t)
    (ha : allowed (pcPhase (s.pc t)) e = true) (hp : pcPhase p = e.phase)
    (hpc : s'.pc = (s.at t p).pc) (hl : s'.log = e :: s.log) : PInv s' := by
  refine ⟨fun u => ?_, ?_⟩
  · rw [hl, hpc]
    simp only [St.at, phase, he]
    by_cases hu : u = t
    · subst hu; simp [hp]
    · simp only [hu, if_false, Ne.symm hu]; exact h.1 u
  · rw [hl]
    refine ⟨?_, h.2⟩
    rw [he, h.1 t]; exact ha

theorem take_some {s s' : St} {t : Nat} {p : Pc} (h : take s t p = some s') :
    s.mtx = none ∧ s' = (s.at t p).acquire t := by
  unfold take at h
  split at h
  · rename_i h0; injection h with h; exact ⟨h0, h.symm⟩
  · cases h

theorem pinv_go {s s' : St} (h : PInv s) (t : Nat) (hs : go s t = some s') : PInv s' := by
  unfold go at hs
  cases hpc : s.pc t <;> rw [hpc] at hs <;> simp only [reduceCtorEq] at hs
  case lockCheck =>
    injection hs with hs
    split at hs <;> subst hs
    · exact pinv_silent h t .lockThrow (by rw [hpc]; rfl) rfl rfl
    · exact pinv_event h t .lockLoop (.lockPass t) rfl (by rw [hpc]; rfl) rfl rfl rfl
  case lockThrow =>
    injection hs with hs; subst hs
    exact pinv_event h t .idle (.lockThrow t) rfl (by rw [hpc]; rfl) rfl rfl rfl
  case lockLoop =>
    injection hs with hs
    split at hs <;> subst hs
    · exact pinv_silent h t .waiting (by rw [hpc]; rfl) rfl rfl
    · exact pinv_silent h t .lockLoad (by rw [hpc]; rfl) rfl rfl
  case lockLoad =>
    injection hs with hs; subst hs
    exact pinv_silent h t (.lockStore _) (by rw [hpc]; rfl) rfl rfl
  case lockStore x =>
    injection hs with hs; subst hs
    exact pinv_silent h t .lockRelease (by rw [hpc]; rfl) rfl rfl
  case lockRelease =>
    injection hs with hs; subst hs
    exact pinv_event h t .idle (.lockRet t) rfl (by rw [hpc]; rfl) rfl rfl rfl
  case tryTest =>
    injection hs with hs
    split at hs <;> subst hs
    · exact pinv_silent h t .tryLoad (by rw [hpc]; rfl) rfl rfl
    · exact pinv_silent h t (.tryRelease false) (by rw [hpc]; rfl) rfl rfl
  case tryLoad =>
    injection hs with hs; subst hs
    exact pinv_silent h t (.tryStore _) (by rw [hpc]; rfl) rfl rfl
  case tryStore x =>
    injection hs with hs; subst hs
    exact pinv_silent h t (.tryRelease true) (by rw [hpc]; rfl) rfl rfl
  case tryRelease b =>
    injection hs with hs; subst hs
    exact pinv_event h t .idle (.tryRet t b) rfl (by rw [hpc]; rfl) rfl rfl rfl
  case unTest =>
    injection hs with hs
    split at hs <;> subst hs
    · exact pinv_silent h t .unLoad (by rw [hpc]; rfl) rfl rfl
    · exact pinv_silent h t (.unRelease false) (by rw [hpc]; rfl) rfl rfl
  case unLoad =>
    injection hs with hs; subst hs
    exact pinv_silent h t (.unStore _) (by rw [hpc]; rfl) rfl rfl
  case unStore x =>
    injection hs with hs; subst hs
    exact pinv_silent h t (.unRelease true) (by rw [hpc]; rfl) rfl rfl
  case unRelease b =>
    injection hs with hs; subst hs
    exact pinv_event h t (if b then .unNotify else .idle) (.unlockDone t b) rfl (by rw [hpc]; rfl) (by cases b <;> rfl)
      rfl rfl
  case setTest m =>
    injection hs with hs; subst hs
    exact pinv_silent h t (.setStore _ _) (by rw [hpc]; rfl) rfl rfl
  case setStore m g =>
    injection hs with hs; subst hs
    exact pinv_silent h t (.setRelease _ _) (by rw [hpc]; rfl) rfl rfl
  case setRelease m g =>
    injection hs with hs; subst hs
    exact pinv_event h t (if g then .setNotify else .idle) (.setDone t m) rfl (by rw [hpc]; rfl) (by cases g <;> rfl)
      rfl rfl
  case cntRead =>
    injection hs with hs; subst hs
    exact pinv_silent h t (.cntRelease _) (by rw [hpc]; rfl) rfl rfl
  case cntRelease x =>
    injection hs with hs; subst hs
    exact pinv_event h t .idle (.countRet t x) rfl (by rw [hpc]; rfl) rfl rfl rfl
  case maxRead =>
    injection hs with hs; subst hs
    exact pinv_event h t .idle (.maxRet t _) rfl (by rw [hpc]; rfl) rfl rfl rfl
  all_goals
    obtain ⟨_, hs⟩ := take_some hs
    subst hs
    first
      | exact pinv_silent h t .lockCheck (by rw [hpc]; rfl) rfl rfl
      | exact pinv_silent h t .lockLoop (by rw [hpc]; rfl) rfl rfl
      | exact pinv_silent h t .tryTest (by rw [hpc]; rfl) rfl rfl
      | exact pinv_silent h t .unTest (by rw [hpc]; rfl) rfl rfl
      | exact pinv_silent h t (.setTest _) (by rw [hpc]; rfl) rfl rfl
      | exact pinv_silent h t .cntRead (by rw [hpc]; rfl) rfl rfl

theorem pinv_step {s s' : St} (h : PInv s) (l : Nat × Act) (hs : step s l = some s') : PInv s' := by
  obtain ⟨t, act⟩ := l
  cases act with
  | go => exact pinv_go h t hs
  | call op =>
    simp only [step] at hs
    split at hs
    · rename_i hpc
      cases op <;> simp only [enter] at hs
      case setAvail m =>
        split at hs
        · injection hs with hs; subst hs
          exact pinv_silent h t (.setEnter m) (by rw [hpc]; rfl) rfl rfl
        · cases hs
      case unlock =>
        injection hs with hs; subst hs
        exact pinv_event h t .unEnter (.unlockCall t) rfl (by rw [hpc]; rfl) rfl rfl rfl
      case lock =>
        injection hs with hs; subst hs
        exact pinv_silent h t .lockEnter (by rw [hpc]; rfl) rfl rfl
      case tryLock =>
        injection hs with hs; subst hs
        exact pinv_silent h t .tryEnter (by rw [hpc]; rfl) rfl rfl
      case count =>
        injection hs with hs; subst hs
        exact pinv_silent h t .cntEnter (by rw [hpc]; rfl) rfl rfl
      case maxCount =>
        injection hs with hs; subst hs
        exact pinv_silent h t .maxRead (by rw [hpc]; rfl) rfl rfl
    · cases hs
  | timeout =>
    simp only [step] at hs
    split at hs
    · rename_i hpc
      injection hs with hs; subst hs
      exact pinv_silent h t .woken (by rw [hpc]; rfl) rfl rfl
    · cases hs
  | notify u =>
    simp only [step, notify] at hs
    split at hs
    · rename_i hpc
      have h1 : PInv (s.at t .idle) :=
        pinv_silent h t .idle (by rcases hpc with hpc | hpc <;> rw [hpc] <;> rfl) rfl rfl
      cases u with
      | none => injection hs with hs; subst hs; exact h1
      | some u =>
        simp only at hs
        split at hs
        · rename_i hu
          injection hs with hs; subst hs
          have hne : u ≠ t := fun he => by
            subst he; rw [hu] at hpc; rcases hpc with hpc | hpc <;> cases hpc
          exact pinv_silent h1 u .woken (by simp [St.at, hne, hu, pcPhase]) rfl rfl
        · cases hs
    · cases hs

theorem reach_pinv {n : Nat} {s : St} (h : Reach n s) : PInv s := by
  obtain ⟨sched, hs⟩ := h
  have : ∀ (sched : List (Nat × Act)) (s s' : St), PInv s → exec s sched = some s' → PInv s' := by
    intro sched
    induction sched with
    | nil => intro s s' h hs; injection hs with hs; subst hs; exact h
    | cons l ls ih =>
      intro s s' h hs
      simp only [exec] at hs
      cases hst : step s l with
      | none => rw [hst] at hs; cases hs
      | some s1 => rw [hst] at hs; exact ih s1 s' (pinv_step h l hst) hs
  exact this sched (init n) s ⟨fun _ => rfl, trivial⟩ hs

/-- No result of `unlock` without a call. -/
theorem done_le {log : List Event} (h : Ordered log) (t : Nat) :
    log.countP (fun e => e.isDone && e.tid == t) + (if phase log t = .inUnlock then 1 else 0) = unlocks log t := by
  induction log with
  | nil => rfl
  | cons e log ih =>
    have ih := ih h.2
    have ha := h.1
    simp only [unlocks] at ih ⊢
    rw [List.countP_cons, List.countP_cons]
    by_cases he : e.tid = t
    · simp only [phase, he, if_true] at ha ⊢
      cases hph : phase log t <;> rw [hph] at ha ih <;> cases e <;>
        simp_all [allowed, Event.isDone, Event.isCall, Event.phase]
    · simp only [phase, he, if_false]
      simp [he]; omega

/-- Counting per thread. -/
theorem count_sum (p : Event → Bool) (T : Finset Nat) : ∀ log : List Event, (∀ e ∈ log, e.tid ∈ T) →
    ∑ t ∈ T, log.countP (fun e => p e && e.tid == t) = log.countP p := by
  intro log
  induction log with
  | nil => intro _; simp
  | cons e log ih =>
    intro h
    simp only [List.countP_cons, Finset.sum_add_distrib]
    rw [ih (fun x hx => h x (by simp [hx]))]
    congr 1
    have he := h e (by simp)
    by_cases hp : p e = true
    · simp only [hp, Bool.true_and, beq_iff_eq, if_true]
      rw [Finset.sum_ite_eq T e.tid, if_pos he]
    · simp [hp]

/-- C88: while no change of the number of resources has taken effect, and if no thread called `unlock` more often than
it acquired, at most `n` threads hold a resource: acquired one by a returned `lock` or a successful `try_lock` and have
not called `unlock` since. -/
theorem C88_holders (n : Nat) (hn : n < W) (s : St) (h : Reach n s) (hfix : ∀ e ∈ s.log, e.isSet = false)
    (hdisc : ∀ t, unlocks s.log t ≤ acquired s.log t) (holders : List Nat) (hnd : holders.Nodup)
    (hold : ∀ t ∈ holders, unlocks s.log t < acquired s.log t) : holders.length ≤ n := by
  obtain ⟨a, hi⟩ := reach_inv hn h
  obtain ⟨h1, h2⟩ := replay_fixed hi.log hfix
  have hcount := replay_count hi.log
  have hord := (reach_pinv h).2
  let T : Finset Nat := (s.log.map Event.tid).toFinset
  have hT : ∀ e ∈ s.log, e.tid ∈ T := by
    intro e he
    simp only [T, List.mem_toFinset, List.mem_map]
    exact ⟨e, he, rfl⟩
  have hacq := count_sum Event.isAcq T s.log hT
  have hcall := count_sum Event.isCall T s.log hT
  have hdone := count_sum Event.isDone T s.log hT
  have hdle : s.log.countP Event.isDone ≤ s.log.countP Event.isCall := by
    rw [← hdone, ← hcall]
    apply Finset.sum_le_sum
    intro t _
    have := done_le hord t
    simp only [unlocks] at this
    omega
  have hfle : s.log.countP Event.isFree ≤ s.log.countP Event.isDone := by
    apply List.countP_mono_left
    intro e _ he
    cases e <;> simp_all [Event.isFree, Event.isDone]
  have hsum : ∑ t ∈ T, acquired s.log t =
      ∑ t ∈ T, (acquired s.log t - unlocks s.log t) + ∑ t ∈ T, unlocks s.log t := by
    rw [← Finset.sum_add_distrib]
    exact Finset.sum_congr rfl fun t _ => (Nat.sub_add_cancel (hdisc t)).symm
  have hsub : holders.toFinset ⊆ T := by
    intro t ht
    have ht := hold t (by simpa using ht)
    have hpos : 0 < acquired s.log t := by omega
    rw [acquired, List.countP_pos_iff] at hpos
    obtain ⟨e, he, hh⟩ := hpos
    have hh : e.tid = t := by simpa using (Bool.and_eq_true_iff.mp hh).2
    exact hh ▸ hT e he
  have hle : holders.length ≤ ∑ t ∈ T, (acquired s.log t - unlocks s.log t) := by
    rw [← List.toFinset_card_of_nodup hnd, Finset.card_eq_sum_ones]
    refine Nat.le_trans ?_ (Finset.sum_le_sum_of_subset hsub)
    apply Finset.sum_le_sum
    intro t ht
    have := hold t (by simpa using ht)
    omega
  simp only [acquired, unlocks] at hsum hle
  rw [hacq, hcall] at hsum
  omega

/-- Two resources, three threads: the third waits. -/
example :
    let run (t : Nat) : List (Nat × Act) := (t, .call .lock) :: List.replicate 6 (t, .go)
    (exec (init 2) (run 0 ++ run 1 ++ [(2, .call .lock), (2, .go), (2, .go), (2, .go)])).map
      (fun s => (s.count, s.pc 0, s.pc 1, s.pc 2)) = some (2, .idle, .idle, .waiting) := by
  decide +kernel

/-! ### C89 -/

/-- C89: whenever the mutex is free, `_count` is the number of acquisitions minus the number of effective unlocks. -/
theorem C89_count (n : Nat) (hn : n < W) (s : St) (h : Reach n s) (hfree : s.mtx = none) :
    s.log.countP Event.isAcq = s.count + s.log.countP Event.isFree := by
  obtain ⟨a, hi⟩ := reach_inv hn h
  rw [(hi.free hfree).1]
  exact replay_count hi.log

/-- C89: what `count()` returns is the number of acquisitions minus the number of effective unlocks so far. -/
theorem C89_returned (n : Nat) (hn : n < W) (s : St) (h : Reach n s) (l1 l2 : List Event) (t v : Nat)
    (hl : s.log = l1 ++ .countRet t v :: l2) : l2.countP Event.isAcq = v + l2.countP Event.isFree := by
  obtain ⟨a, a', h1, h2⟩ := observed hn h hl
  rw [replay_count h1]
  simp only [absStep] at h2
  split at h2
  · rename_i h3; rw [h3]
  · cases h2

/-- C89: an `unlock` is effective exactly when some resource is allocated; otherwise it changes nothing. -/
theorem C89_free (n : Nat) (hn : n < W) (s : St) (h : Reach n s) (l1 l2 : List Event) (t : Nat) (eff : Bool)
    (hl : s.log = l1 ++ .unlockDone t eff :: l2) :
    (eff = true ↔ l2.countP Event.isFree < l2.countP Event.isAcq) ∧
    (eff = false → replay n (.unlockDone t eff :: l2) = replay n l2) := by
  obtain ⟨a, a', h1, h2⟩ := observed hn h hl
  have hc := replay_count h1
  simp only [absStep] at h2
  split at h2
  · rename_i h0
    cases eff
    · refine ⟨⟨fun hh => (Bool.false_ne_true hh).elim, fun hh => by omega⟩, fun _ => ?_⟩
      simp [replay, h1, absStep, h0]
    · cases h2
  · cases eff
    · cases h2
    · exact ⟨⟨fun _ => by omega, fun _ => rfl⟩, fun hh => by cases hh⟩

example : (exec (init 1) ([(7, .call .unlock), (7, .go), (7, .go), (7, .go)])).map
    (fun s => (s.count, s.pc 7, s.log)) = some (0, .idle, [.unlockDone 7 false, .unlockCall 7]) := by decide +kernel

/-! ### C90 -/

/-- C90: `try_lock` succeeds exactly when fewer resources are allocated than available at the point of the log where it
takes effect. -/
theorem C90_exact (n : Nat) (hn : n < W) (s : St) (h : Reach n s) (l1 l2 : List Event) (t : Nat) (b : Bool)
    (hl : s.log = l1 ++ .tryRet t b :: l2) :
    ∃ a, replay n l2 = some a ∧ (b = true ↔ a.count < a.avail) := by
  obtain ⟨a, a', h1, h2⟩ := observed hn h hl
  refine ⟨a, h1, ?_⟩
  simp only [absStep] at h2
  split at h2
  · rename_i h0
    cases b
    · cases h2
    · simp [h0]
  · rename_i h0
    cases b
    · simp [h0]
    · cases h2

/-- The program counters of `try_lock` after it got the mutex. -/
def inTry : Pc → Bool
  | .tryTest | .tryLoad | .tryStore _ | .tryRelease _ => true
  | _ => false

theorem exec_one {s s' : St} {l : Nat × Act} {ls : List (Nat × Act)} (h : step s l = some s') :
    exec s (l :: ls) = exec s' ls := by simp [exec, h]

/-- C90: `try_lock` never blocks: once it has the mutex it returns after at most four of its own steps, whatever the
others do not do; the mutex is all it waits for. -/
theorem C90_returns (s : St) (t : Nat) (hin : inTry (s.pc t) = true) :
    ∃ k ≤ 4, ∃ s' b, exec s (List.replicate k (t, .go)) = some s' ∧ s'.pc t = .idle ∧ s'.mtx = none ∧
      s'.log = .tryRet t b :: s.log := by
  have h1 : ∀ s : St, ∀ b, s.pc t = .tryRelease b → ∃ s', exec s [(t, .go)] = some s' ∧ s'.pc t = .idle ∧
      s'.mtx = none ∧ s'.log = .tryRet t b :: s.log := by
    intro s b h
    exact ⟨(s.at t .idle).release.emit (.tryRet t b), by simp only [exec, step, go, h, Option.bind_some],
      by simp [St.at, St.release, St.emit], rfl, rfl⟩
  have h2 : ∀ s : St, ∀ c, s.pc t = .tryStore c → ∃ s' b, exec s [(t, .go), (t, .go)] = some s' ∧ s'.pc t = .idle ∧
      s'.mtx = none ∧ s'.log = .tryRet t b :: s.log := by
    intro s c h
    obtain ⟨s', e1, e2⟩ := h1 { s.at t (.tryRelease true) with count := (c + 1) % W } true (by simp [St.at])
    exact ⟨s', true, by rw [exec_one (s' := { s.at t (.tryRelease true) with count := (c + 1) % W })
      (by simp only [step, go, h])]; exact e1, e2⟩
  have h3 : ∀ s : St, s.pc t = .tryLoad → ∃ s' b, exec s [(t, .go), (t, .go), (t, .go)] = some s' ∧ s'.pc t = .idle ∧
      s'.mtx = none ∧ s'.log = .tryRet t b :: s.log := by
    intro s h
    obtain ⟨s', b, e1, e2⟩ := h2 (s.at t (.tryStore s.count)) s.count (by simp [St.at])
    exact ⟨s', b, by rw [exec_one (s' := s.at t (.tryStore s.count)) (by simp only [step, go, h])]; exact e1, e2⟩
  cases hp : s.pc t <;> rw [hp] at hin <;> simp only [inTry, reduceCtorEq] at hin
  case tryRelease b =>
    obtain ⟨s', e⟩ := h1 s b hp
    exact ⟨1, by omega, s', b, e⟩
  case tryStore c =>
    obtain ⟨s', b, e⟩ := h2 s c hp
    exact ⟨2, by omega, s', b, e⟩
  case tryLoad =>
    obtain ⟨s', b, e⟩ := h3 s hp
    exact ⟨3, by omega, s', b, e⟩
  case tryTest =>
    by_cases hc : s.count < s.avail
    · obtain ⟨s', b, e1, e2⟩ := h3 (s.at t .tryLoad) (by simp [St.at])
      exact ⟨4, by omega, s', b, by
        rw [show List.replicate 4 (t, Act.go) = (t, Act.go) :: [(t, .go), (t, .go), (t, .go)] from rfl,
          exec_one (s' := s.at t .tryLoad) (by simp only [step, go, hp, hc, if_true])]; exact e1, e2⟩
    · obtain ⟨s', e1, e2⟩ := h1 (s.at t (.tryRelease false)) false (by simp [St.at])
      exact ⟨2, by omega, s', false, by
        rw [show List.replicate 2 (t, Act.go) = (t, Act.go) :: [(t, .go)] from rfl,
          exec_one (s' := s.at t (.tryRelease false)) (by simp only [step, go, hp, hc, if_false])]; exact e1, e2⟩

/-- C90: a thread in `try_lock` moves only between the steps of `try_lock`, it never joins the waiting threads. -/
theorem C90_never_waits (s s' : St) (t u : Nat) (act : Act) (hin : s.pc t = .tryEnter ∨ inTry (s.pc t) = true)
    (hs : step s (u, act) = some s') : s'.pc t = .tryEnter ∨ inTry (s'.pc t) = true ∨ s'.pc t = .idle := by
  by_cases hu : t = u
  · subst hu
    cases act with
    | go =>
      simp only [step, go] at hs
      rcases hin with hin | hin
      · rw [hin] at hs
        obtain ⟨_, hs⟩ := take_some hs
        subst hs
        right; left
        simp [St.at, St.acquire, inTry]
      · cases hp : s.pc t <;> rw [hp] at hin hs <;> simp only [inTry, reduceCtorEq] at hin
        case tryTest =>
          injection hs with hs
          split at hs <;> subst hs <;> simp [St.at, inTry]
        all_goals
          injection hs with hs
          subst hs
          simp [St.at, St.release, St.emit, inTry]
    | call op =>
      simp only [step] at hs
      rcases hin with hin | hin
      · simp [hin] at hs
      · split at hs
        · rename_i h0; rw [h0] at hin; cases hin
        · cases hs
    | timeout =>
      simp only [step] at hs
      rcases hin with hin | hin
      · simp [hin] at hs
      · split at hs
        · rename_i h0; rw [h0] at hin; cases hin
        · cases hs
    | notify v =>
      simp only [step, notify] at hs
      split at hs
      · rename_i h0
        rcases hin with hin | hin
        · rw [hin] at h0; rcases h0 with h0 | h0 <;> cases h0
        · rcases h0 with h0 | h0 <;> rw [h0] at hin <;> cases hin
      · cases hs
  · have key : s'.pc t = s.pc t := by
      cases act with
      | go =>
        simp only [step, go] at hs
        split at hs
        all_goals (first | (obtain ⟨_, hs⟩ := take_some hs; subst hs; simp [St.at, St.acquire, hu]) | skip)
        all_goals (first | (injection hs with hs; subst hs; simp [St.at, St.release, St.emit, hu]; done) | skip)
        all_goals (first | (injection hs with hs; split at hs <;> subst hs <;>
          simp [St.at, St.release, St.emit, hu]; done) | cases hs)
      | call op =>
        simp only [step] at hs
        split at hs
        · cases op <;> simp only [enter] at hs
          case setAvail m =>
            split at hs
            · injection hs with hs; subst hs; simp [St.at, hu]
            · cases hs
          all_goals
            injection hs with hs
            subst hs
            simp [St.at, St.emit, hu]
        · cases hs
      | timeout =>
        simp only [step] at hs
        split at hs
        · injection hs with hs; subst hs; simp [St.at, hu]
        · cases hs
      | notify v =>
        simp only [step, notify] at hs
        split at hs
        · cases v with
          | none => injection hs with hs; subst hs; simp [St.at, hu]
          | some v =>
            simp only at hs
            split at hs
            · rename_i hv
              injection hs with hs
              subst hs
              have hne : t ≠ v := fun he => by
                subst he
                rw [hv] at hin
                rcases hin with hin | hin <;> cases hin
              simp [St.at, hu, hne]
            · cases hs
        · cases hs
    rw [key]
    rcases hin with hin | hin
    · exact .inl hin
    · exact .inr (.inl hin)

/-! ### C91 -/

/-- C91: whenever a resource is free and the mutex is free, a thread blocked in `wait_for` acquires the resource by its
own timed wake-up, without any notification. -/
theorem C91_acquires (n : Nat) (s : St) (t : Nat) (hw : s.pc t = .waiting) (hm : s.mtx = none)
    (hc : s.count < s.avail) (_h : Reach n s) :
    ∃ s', exec s ((t, .timeout) :: List.replicate 5 (t, .go)) = some s' ∧ s'.pc t = .idle ∧
      s'.log = .lockRet t :: s.log ∧ s'.mtx = none ∧ s'.count = (s.count + 1) % W := by
  have hc : ¬ s.count ≥ s.avail := by omega
  simp only [List.replicate, exec, step, hw, if_true, Option.bind_some, go, take, St.at, St.acquire, hm, hc, if_false,
    St.release, St.emit, Option.some.injEq, exists_eq_left', and_self]

/-- Number of steps left in the critical section. -/
def left : Pc → Nat
  | .lockCheck => 5 | .lockLoop => 4 | .lockLoad => 3 | .lockStore _ => 2 | .lockRelease | .lockThrow => 1
  | .tryTest => 4 | .tryLoad => 3 | .tryStore _ => 2 | .tryRelease _ => 1
  | .unTest => 4 | .unLoad => 3 | .unStore _ => 2 | .unRelease _ => 1
  | .setTest _ => 3 | .setStore _ _ => 2 | .setRelease _ _ => 1
  | .cntRead => 2 | .cntRelease _ => 1
  | _ => 0

theorem owner_steps (s : St) (t : Nat) (hm : s.mtx = some t) (ho : Owns (s.pc t) = true) :
    ∃ s', step s (t, .go) = some s' ∧
      (s'.mtx = none ∨ (s'.mtx = some t ∧ Owns (s'.pc t) = true ∧ left (s'.pc t) < left (s.pc t))) := by
  cases hp : s.pc t <;> rw [hp] at ho <;> simp only [Owns, reduceCtorEq] at ho <;>
    simp only [step, go, hp, Option.some.injEq, exists_eq_left']
  case lockCheck => split <;> simp [St.at, St.emit, hm, Owns, left]
  case lockLoop => split <;> simp [St.at, St.release, hm, Owns, left]
  case tryTest => split <;> simp [St.at, hm, Owns, left]
  case unTest => split <;> simp [St.at, hm, Owns, left]
  all_goals simp [St.at, St.release, St.emit, hm, Owns, left]

/-- C91: the mutex never stays locked: its owner leaves the critical section after at most five of its own steps. -/
theorem C91_mutex_released (n : Nat) (hn : n < W) (s : St) (h : Reach n s) (t : Nat) (hm : s.mtx = some t) :
    ∃ k ≤ 5, ∃ s', exec s (List.replicate k (t, .go)) = some s' ∧ s'.mtx = none := by
  obtain ⟨a, hi⟩ := reach_inv hn h
  have ho := (hi.owner t).mpr hm
  have all : ∀ k (s : St), left (s.pc t) ≤ k → s.mtx = some t → Owns (s.pc t) = true →
      ∃ j ≤ k, ∃ s', exec s (List.replicate j (t, .go)) = some s' ∧ s'.mtx = none := by
    intro k
    induction k with
    | zero =>
      intro s hl hm ho
      exfalso
      cases hp : s.pc t <;> rw [hp] at ho hl <;> simp [Owns, left] at ho hl
    | succ k ih =>
      intro s hl hm ho
      obtain ⟨s', h1, h2⟩ := owner_steps s t hm ho
      rcases h2 with h2 | ⟨h2, h3, h4⟩
      · exact ⟨1, by omega, s', by simp only [List.replicate, exec, h1, Option.bind_some], h2⟩
      · obtain ⟨j, hj, s'', h5, h6⟩ := ih s' (by omega) h2 h3
        exact ⟨j + 1, by omega, s'', by rw [List.replicate_succ, exec_one h1]; exact h5, h6⟩
  have hl5 : left (s.pc t) ≤ 5 := by
    cases hp : s.pc t <;> simp [left]
  exact all 5 s hl5 hm ho

/-- The timeout is what makes C91 true: raising the resources from 1 to 3 with two threads waiting wakes one of them;
the other sleeps on next to a free resource until its timeout. -/
theorem C91_one_notified :
    (exec (init 1) (((0, .call .lock) :: List.replicate 6 (0, .go)) ++
      [(1, .call .lock), (1, .go), (1, .go), (1, .go), (2, .call .lock), (2, .go), (2, .go), (2, .go)] ++
      [(0, .call (.setAvail 3)), (0, .go), (0, .go), (0, .go), (0, .go), (0, .notify (some 1))] ++
      List.replicate 5 (1, .go))).map (fun s => (s.count, s.avail, s.mtx, s.pc 0, s.pc 1, s.pc 2)) =
    some (2, 3, none, .idle, .idle, .waiting) := by
  decide +kernel

/-! ### C92 -/

/-- C92: every run of the semaphore, whatever the interleaving and the changes of the limit, is explained by a run of
the atomic semaphore with the same observations, and the members agree with it whenever the mutex is free. -/
theorem C92_atomic (n : Nat) (hn : n < W) (s : St) (h : Reach n s) :
    ∃ a, replay n s.log = some a ∧ (s.mtx = none → s.count = a.count ∧ s.avail = a.avail) := by
  obtain ⟨a, hi⟩ := reach_inv hn h
  exact ⟨a, hi.log, hi.free⟩

/-- C92: `set_available_resources` changes only the limit. -/
theorem C92_set (n : Nat) (hn : n < W) (s : St) (h : Reach n s) (l1 l2 : List Event) (t m : Nat)
    (hl : s.log = l1 ++ .setDone t m :: l2) :
    ∃ a, replay n l2 = some a ∧ replay n (.setDone t m :: l2) = some { a with avail := m } := by
  obtain ⟨a, a', h1, h2⟩ := observed hn h hl
  exact ⟨a, h1, by simp [replay, h1, absStep]⟩

/-- C92: no acquisition takes effect while the count has reached the limit in force. -/
theorem C92_acquire (n : Nat) (hn : n < W) (s : St) (h : Reach n s) (l1 l2 : List Event) (e : Event)
    (he : e.isAcq = true) (hl : s.log = l1 ++ e :: l2) :
    ∃ a, replay n l2 = some a ∧ a.count < a.avail := by
  obtain ⟨a, a', h1, h2⟩ := observed hn h hl
  refine ⟨a, h1, ?_⟩
  rcases absStep_cases h2 with ⟨_, _, _, h3, _⟩ | ⟨h3, _⟩ | ⟨h3, _⟩ | ⟨h3, _⟩
  · exact h3
  all_goals rw [he] at h3; cases h3

/-- C92: `lock` throws only when the limit is 0 at its check, passes the check only when it is not, and a thread that
passed the check returns from `lock` before anything else: it does not throw later. -/
theorem C92_throw (n : Nat) (hn : n < W) (s : St) (h : Reach n s) (l1 l2 : List Event) (t : Nat) :
    (s.log = l1 ++ .lockThrow t :: l2 → (∃ a, replay n l2 = some a ∧ a.avail = 0) ∧ phase l2 t ≠ .inLock) ∧
    (s.log = l1 ++ .lockPass t :: l2 → ∃ a, replay n l2 = some a ∧ a.avail ≠ 0) ∧
    (s.log = l1 ++ .lockRet t :: l2 → phase l2 t = .inLock) := by
  have hord := (reach_pinv h).2
  have hsplit : ∀ (l1 l2 : List Event), Ordered (l1 ++ l2) → Ordered l2 := by
    intro l1
    induction l1 with
    | nil => intro l2 h; exact h
    | cons e l1 ih => intro l2 h; exact ih l2 h.2
  refine ⟨fun hl => ?_, fun hl => ?_, fun hl => ?_⟩
  · obtain ⟨a, a', h1, h2⟩ := observed hn h hl
    rw [hl] at hord
    have ho := (hsplit l1 _ hord).1
    simp only [absStep] at h2
    split at h2
    · rename_i h0
      refine ⟨⟨a, h1, h0⟩, fun hp => ?_⟩
      simp only [Event.tid] at ho
      rw [hp] at ho
      cases ho
    · cases h2
  · obtain ⟨a, a', h1, h2⟩ := observed hn h hl
    simp only [absStep] at h2
    split at h2
    · rename_i h0; exact ⟨a, h1, h0⟩
    · cases h2
  · rw [hl] at hord
    have ho := (hsplit l1 _ hord).1
    simp only [Event.tid] at ho
    cases hp : phase l2 t <;> rw [hp] at ho <;> first | rfl | cases ho

/-- Both outcomes occur; a thread that is already waiting is not thrown out when the limit drops to 0. -/
example : ((exec (init 0) ((3, .call .lock) :: List.replicate 3 (3, .go))).map (·.log) = some [.lockThrow 3]) ∧
    (exec (init 1) (((0, .call .lock) :: List.replicate 6 (0, .go)) ++ [(1, .call .lock), (1, .go), (1, .go), (1, .go)] ++
      ((0, .call (.setAvail 0)) :: List.replicate 4 (0, .go)) ++
      ((0, .call .unlock) :: List.replicate 5 (0, .go)) ++
      [(0, .notify (some 1)), (1, .go), (1, .go)])).map (fun s => (s.count, s.avail, s.pc 1)) = some (0, 0, .waiting) := by
  decide +kernel

/-! ### C108 -/

/-- The full claim of C108: no data race. -/
def C108_statement : Prop := ∀ n, n < W → ∀ s, Reach n s → ∀ t u, ¬ Race s t u

/-- C108 fails: `max_count` reads `_available_resources` without the mutex, next to `set_available_resources`. -/
theorem C108_counterexample : ¬ C108_statement := by
  intro h
  have hr : Reach 1 ((exec (init 1) [(0, .call (.setAvail 2)), (0, .go), (0, .go), (1, .call .maxCount)]).getD (init 1)) :=
    ⟨[(0, .call (.setAvail 2)), (0, .go), (0, .go), (1, .call .maxCount)], by
      have : (exec (init 1) [(0, .call (.setAvail 2)), (0, .go), (0, .go), (1, .call .maxCount)]).isSome = true := by
        decide +kernel
      rw [Option.isSome_iff_exists] at this
      obtain ⟨s, hs⟩ := this
      rw [hs]; rfl⟩
  refine h 1 (by decide) _ hr 0 1 ⟨by decide, .avail, true, false, ?_, ?_, .inl rfl⟩
  · decide +kernel
  · decide +kernel

theorem accesses_own {p : Pc} (h : p.accesses ≠ []) : Owns p = true ∨ p = .maxRead := by
  cases p <;> simp [Pc.accesses, Owns] at h ⊢

/-- C108, the part that holds: every race involves `max_count` and `set_available_resources`; all other
operations access the members under the mutex only.
Missing: `max_count` without the mutex, see the counterexample. -/
theorem C108_races_partial (n : Nat) (hn : n < W) (s : St) (h : Reach n s) (t u : Nat) (hr : Race s t u) :
    (s.pc t = .maxRead ∧ ∃ m g, s.pc u = .setStore m g) ∨ (s.pc u = .maxRead ∧ ∃ m g, s.pc t = .setStore m g) := by
  obtain ⟨a, hi⟩ := reach_inv hn h
  obtain ⟨hne, l, w, w', h1, h2, h3⟩ := hr
  have ht := accesses_own (p := s.pc t) (fun h0 => by rw [h0] at h1; simp at h1)
  have hu := accesses_own (p := s.pc u) (fun h0 => by rw [h0] at h2; simp at h2)
  have max : ∀ {l w} {p : Pc}, p = .maxRead → (l, w) ∈ p.accesses → l = .avail ∧ w = false := by
    intro l w p hp hm
    subst hp
    simpa [Pc.accesses] using hm
  have wr : ∀ {p : Pc}, (Loc.avail, true) ∈ p.accesses → ∃ m g, p = .setStore m g := by
    intro p hp
    cases p <;> simp [Pc.accesses] at hp ⊢
  rcases ht with ht | ht
  · rcases hu with hu | hu
    · have e1 := (hi.owner t).mp ht
      have e2 := (hi.owner u).mp hu
      rw [e1] at e2
      injection e2 with e2
      exact absurd e2 hne
    · obtain ⟨rfl, rfl⟩ := max hu h2
      have h3 : w = true := by simpa using h3
      subst h3
      exact .inr ⟨hu, wr h1⟩
  · obtain ⟨rfl, rfl⟩ := max ht h1
    have h3 : w' = true := by simpa using h3
    subst h3
    exact .inl ⟨ht, wr h2⟩

/-- **C108, exactly:** the semaphore is raced for if and only if one thread is about to read in `max_count` while another is about to write
in `set_available_resources`. -/
theorem C108_exact (n : Nat) (hn : n < W) (s : St) (h : Reach n s) (t u : Nat) :
    Race s t u ↔
      (s.pc t = .maxRead ∧ ∃ m g, s.pc u = .setStore m g) ∨ (s.pc u = .maxRead ∧ ∃ m g, s.pc t = .setStore m g) := by
  constructor
  · exact C108_races_partial n hn s h t u
  · rintro (⟨h1, m, g, h2⟩ | ⟨h1, m, g, h2⟩)
    · refine ⟨(fun e => by rw [e, h2] at h1; cases h1), .avail, false, true, ?_, ?_, .inr rfl⟩
      · simp [h1, Pc.accesses]
      · simp [h2, Pc.accesses]
    · refine ⟨(fun e => by rw [e, h1] at h2; cases h2), .avail, true, false, ?_, ?_, .inl rfl⟩
      · simp [h2, Pc.accesses]
      · simp [h1, Pc.accesses]

example : Race (((init 1).at 0 .maxRead).at 1 (.setStore 2 true)) 0 1 :=
  ⟨by decide, .avail, false, true, by decide, by decide, .inr rfl⟩

end Verif.Sem
