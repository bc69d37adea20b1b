import Verif.Conc.SemModel

/-
The invariant of the semaphore: every reachable state is explained by a run of the atomic semaphore below.
-/

namespace Verif.Sem

/-! ### Specification: the atomic semaphore -/

structure Abs where
  count : Nat
  avail : Nat
  deriving DecidableEq, Repr

/-- The atomic semaphore: what each observation means.  `none`: the observation is not allowed. -/
def absStep (a : Abs) : Event → Option Abs
  | .lockPass _ => if a.avail ≠ 0 then some a else none
  | .lockRet _ => if a.count < a.avail then some { a with count := a.count + 1 } else none
  | .lockThrow _ => if a.avail = 0 then some a else none
  | .tryRet _ b =>
    if a.count < a.avail then (if b then some { a with count := a.count + 1 } else none)
    else (if b then none else some a)
  | .unlockCall _ => some a
  | .unlockDone _ eff =>
    if a.count = 0 then (if eff then none else some a)
    else (if eff then some { a with count := a.count - 1 } else none)
  | .setDone _ n => some { a with avail := n }
  | .countRet _ v => if v = a.count then some a else none
  | .maxRet _ _ => some a      -- not synchronised

/-- The atomic semaphore after a log (newest first), from `n` resources. -/
def replay (n : Nat) : List Event → Option Abs
  | [] => some ⟨0, n⟩
  | e :: l => (replay n l).bind fun a => absStep a e

/-! ### The invariant -/

/-- The program counters inside a critical section. -/
def Owns : Pc → Bool
  | .lockCheck | .lockThrow | .lockLoop | .lockLoad | .lockStore _ | .lockRelease | .tryTest | .tryLoad | .tryStore _
  | .tryRelease _ | .unTest | .unLoad | .unStore _ | .unRelease _ | .setTest _ | .setStore _ _ | .setRelease _ _
  | .cntRead | .cntRelease _ => true
  | _ => false

/-- Relation between the members (`c`, `v`) and the atomic semaphore, when the mutex owner is at `p`. -/
def R (p : Pc) (c v : Nat) (a : Abs) : Prop :=
  match p with
  | .lockThrow => c = a.count ∧ v = a.avail ∧ v = 0
  | .lockLoad | .tryLoad => c = a.count ∧ v = a.avail ∧ c < v
  | .lockStore x | .tryStore x => c = a.count ∧ v = a.avail ∧ c < v ∧ x = c
  | .lockRelease | .tryRelease true => c = a.count + 1 ∧ v = a.avail ∧ a.count < a.avail
  | .tryRelease false => c = a.count ∧ v = a.avail ∧ v ≤ c
  | .unLoad => c = a.count ∧ v = a.avail ∧ c ≠ 0
  | .unStore x => c = a.count ∧ v = a.avail ∧ c ≠ 0 ∧ x = c
  | .unRelease true => c + 1 = a.count ∧ v = a.avail
  | .unRelease false => c = a.count ∧ v = a.avail ∧ c = 0
  | .setRelease n _ => c = a.count ∧ v = n
  | .cntRelease x => c = a.count ∧ v = a.avail ∧ x = c
  | _ => c = a.count ∧ v = a.avail

/-- The arguments of `set_available_resources` are `size_t` values. -/
def ArgOk : Pc → Prop
  | .setEnter n | .setTest n | .setStore n _ | .setRelease n _ => n < W
  | _ => True

structure Inv (n : Nat) (s : St) (a : Abs) : Prop where
  owner : ∀ t, Owns (s.pc t) = true ↔ s.mtx = some t
  arg   : ∀ t, ArgOk (s.pc t)
  lim   : s.avail < W
  cnt   : s.count < W
  log   : replay n s.log = some a
  free  : s.mtx = none → s.count = a.count ∧ s.avail = a.avail
  busy  : ∀ t, s.mtx = some t → R (s.pc t) s.count s.avail a

theorem inv_init {n : Nat} (h : n < W) : Inv n (init n) ⟨0, n⟩ where
  owner t := by simp [init, Owns]
  arg t := trivial
  lim := h
  cnt := by show 0 < W; decide
  log := rfl
  free _ := ⟨rfl, rfl⟩
  busy t h := by simp [init] at h

/-- The owner continues inside its critical section. -/
theorem inv_local {n : Nat} {s : St} {a : Abs} (h : Inv n s a) {t : Nat} (ht : Owns (s.pc t) = true) {p : Pc}
    (hp : Owns p = true) (ha : ArgOk p) {c v : Nat} (hc : c < W) (hv : v < W) {e : List Event}
    (hl : replay n e = some a) (hr : R p c v a) :
    Inv n { s.at t p with count := c, avail := v, log := e } a := by
  have hm := (h.owner t).mp ht
  refine ⟨fun u => ?_, fun u => ?_, hv, hc, hl, fun h0 => ?_, fun u hu => ?_⟩
  · simp only [St.at]
    by_cases hu : u = t
    · subst hu; simp [hp, hm]
    · simp only [hu, if_false]; exact h.owner u
  · simp only [St.at]
    by_cases hu : u = t
    · simp [hu, ha]
    · simp only [hu, if_false]; exact h.arg u
  · simp only [St.at] at h0; rw [hm] at h0; cases h0
  · simp only [St.at] at hu ⊢
    rw [hm] at hu
    injection hu with hu
    subst hu
    simpa using hr

/-- The owner leaves its critical section. -/
theorem inv_release {n : Nat} {s : St} {a a' : Abs} (h : Inv n s a) {t : Nat} (ht : Owns (s.pc t) = true) {p : Pc}
    (hp : Owns p = false) (ha : ArgOk p) {e : List Event} (hl : replay n e = some a')
    (h1 : s.count = a'.count) (h2 : s.avail = a'.avail) :
    Inv n { s.at t p with mtx := none, log := e } a' := by
  have hm := (h.owner t).mp ht
  refine ⟨fun u => ?_, fun u => ?_, h.lim, h.cnt, hl, fun _ => ⟨h1, h2⟩, fun u hu => ?_⟩
  · simp only [St.at]
    by_cases hu : u = t
    · subst hu; simp [hp]
    · simp only [hu, if_false]
      constructor
      · intro ho
        have := (h.owner u).mp ho
        rw [hm] at this
        injection this with this
        exact absurd this.symm hu
      · intro ho; cases ho
  · simp only [St.at]
    by_cases hu : u = t
    · simp [hu, ha]
    · simp only [hu, if_false]; exact h.arg u
  · cases hu

/-- A thread enters a critical section. -/
theorem inv_take {n : Nat} {s s' : St} {a : Abs} (h : Inv n s a) {t : Nat} {p : Pc} (hp : Owns p = true)
    (ha : ArgOk p) (hr : ∀ c v, c = a.count → v = a.avail → R p c v a) (hs : take s t p = some s') : Inv n s' a := by
  unfold take at hs
  split at hs
  · rename_i h0
    injection hs with hs
    subst hs
    refine ⟨fun u => ?_, fun u => ?_, h.lim, h.cnt, h.log, fun hh => ?_, fun u hu => ?_⟩
    · simp only [St.at, St.acquire]
      by_cases hu : u = t
      · subst hu; simp [hp]
      · simp only [hu, if_false]
        constructor
        · intro ho
          have := (h.owner u).mp ho
          rw [h0] at this; cases this
        · intro ho; injection ho with ho; exact absurd ho.symm hu
    · simp only [St.at, St.acquire]
      by_cases hu : u = t
      · simp [hu, ha]
      · simp only [hu, if_false]; exact h.arg u
    · simp [St.acquire] at hh
    · simp only [St.at, St.acquire] at hu ⊢
      injection hu with hu
      subst hu
      simp only [if_true]
      exact hr _ _ (h.free h0).1 (h.free h0).2
  · cases hs

/-- A thread outside the critical sections moves on. -/
theorem inv_outside {n : Nat} {s : St} {a : Abs} (h : Inv n s a) {t : Nat} (ht : Owns (s.pc t) = false) {p : Pc}
    (hp : Owns p = false) (ha : ArgOk p) {e : List Event} (hl : replay n e = some a) :
    Inv n { s.at t p with log := e } a := by
  have hm : s.mtx ≠ some t := fun hm => by
    have := (h.owner t).mpr hm
    rw [ht] at this; cases this
  refine ⟨fun u => ?_, fun u => ?_, h.lim, h.cnt, hl, h.free, fun u hu => ?_⟩
  · simp only [St.at]
    by_cases hu : u = t
    · subst hu; simp [hp, hm]
    · simp only [hu, if_false]; exact h.owner u
  · simp only [St.at]
    by_cases hu : u = t
    · simp [hu, ha]
    · simp only [hu, if_false]; exact h.arg u
  · simp only [St.at] at hu ⊢
    have hne : u ≠ t := fun he => hm (he ▸ hu)
    simp only [hne, if_false]
    exact h.busy u hu

theorem W_pos : 0 < W := by decide

theorem succ_mod {c v : Nat} (h : c < v) (hv : v < W) : (c + 1) % W = c + 1 := Nat.mod_eq_of_lt (by omega)

theorem pred_mod {c : Nat} (h : c ≠ 0) (hc : c < W) : (c + (W - 1)) % W = c - 1 := by
  have := W_pos
  rw [show c + (W - 1) = (c - 1) + W by omega, Nat.add_mod_right, Nat.mod_eq_of_lt (by omega)]

theorem inv_go {n : Nat} {s s' : St} {a : Abs} (h : Inv n s a) (t : Nat) (hs : go s t = some s') :
    ∃ a', Inv n s' a' := by
  have harg := h.arg t
  have how := h.owner t
  have hlim := h.lim
  have hcnt := h.cnt
  have hown : Owns (s.pc t) = true → R (s.pc t) s.count s.avail a := fun ho => h.busy t (how.mp ho)
  unfold go at hs
  cases hpc : s.pc t <;> rw [hpc] at hs harg hown <;> simp only [reduceCtorEq] at hs
  case lockEnter => exact ⟨a, inv_take h (p := .lockCheck) rfl trivial (fun _ _ h1 h2 => ⟨h1, h2⟩) hs⟩
  case lockCheck =>
    injection hs with hs
    have hr := hown rfl
    simp only [R] at hr
    split at hs <;> subst hs
    · rename_i h0
      exact ⟨a, inv_local h (p := .lockThrow) (by rw [hpc]; rfl) rfl trivial hcnt hlim h.log ⟨hr.1, hr.2, h0⟩⟩
    · rename_i h0
      refine ⟨a, inv_local h (p := .lockLoop) (by rw [hpc]; rfl) rfl trivial hcnt hlim ?_ hr⟩
      simp only [replay, St.at, h.log, Option.bind_some, absStep]
      rw [if_pos (by rw [← hr.2]; exact h0)]
  case lockThrow =>
    injection hs with hs
    have hr := hown rfl
    simp only [R] at hr
    subst hs
    refine ⟨a, inv_release h (p := .idle) (by rw [hpc]; rfl) rfl trivial ?_ hr.1 hr.2.1⟩
    simp only [replay, St.at, St.release, h.log, Option.bind_some, absStep]
    rw [if_pos (by rw [← hr.2.1]; exact hr.2.2)]
  case lockLoop =>
    injection hs with hs
    have hr := hown rfl
    simp only [R] at hr
    split at hs <;> subst hs
    · exact ⟨a, inv_release h (p := .waiting) (by rw [hpc]; rfl) rfl trivial h.log hr.1 hr.2⟩
    · exact ⟨a, inv_local h (p := .lockLoad) (by rw [hpc]; rfl) rfl trivial hcnt hlim h.log ⟨hr.1, hr.2, by omega⟩⟩
  case woken => exact ⟨a, inv_take h (p := .lockLoop) rfl trivial (fun _ _ h1 h2 => ⟨h1, h2⟩) hs⟩
  case lockLoad =>
    injection hs with hs
    have hr := hown rfl
    simp only [R] at hr
    subst hs
    exact ⟨a, inv_local h (p := .lockStore s.count) (by rw [hpc]; rfl) rfl trivial hcnt hlim h.log
      ⟨hr.1, hr.2.1, hr.2.2, rfl⟩⟩
  case lockStore x =>
    injection hs with hs
    have hr := hown rfl
    simp only [R] at hr
    obtain ⟨h1, h2, h3, h4⟩ := hr
    subst h4
    subst hs
    rw [succ_mod h3 hlim]
    exact ⟨a, inv_local h (p := .lockRelease) (by rw [hpc]; rfl) rfl trivial (by omega) hlim h.log
      ⟨by omega, h2, by omega⟩⟩
  case lockRelease =>
    injection hs with hs
    have hr := hown rfl
    simp only [R] at hr
    subst hs
    refine ⟨{ a with count := a.count + 1 }, inv_release h (p := .idle) (by rw [hpc]; rfl) rfl trivial ?_ hr.1 hr.2.1⟩
    simp only [replay, St.at, St.release, h.log, Option.bind_some, absStep]
    rw [if_pos hr.2.2]
  case tryEnter => exact ⟨a, inv_take h (p := .tryTest) rfl trivial (fun _ _ h1 h2 => ⟨h1, h2⟩) hs⟩
  case tryTest =>
    injection hs with hs
    have hr := hown rfl
    simp only [R] at hr
    split at hs <;> subst hs
    · rename_i h0
      exact ⟨a, inv_local h (p := .tryLoad) (by rw [hpc]; rfl) rfl trivial hcnt hlim h.log ⟨hr.1, hr.2, h0⟩⟩
    · exact ⟨a, inv_local h (p := .tryRelease false) (by rw [hpc]; rfl) rfl trivial hcnt hlim h.log
        ⟨hr.1, hr.2, by omega⟩⟩
  case tryLoad =>
    injection hs with hs
    have hr := hown rfl
    simp only [R] at hr
    subst hs
    exact ⟨a, inv_local h (p := .tryStore s.count) (by rw [hpc]; rfl) rfl trivial hcnt hlim h.log
      ⟨hr.1, hr.2.1, hr.2.2, rfl⟩⟩
  case tryStore x =>
    injection hs with hs
    have hr := hown rfl
    simp only [R] at hr
    obtain ⟨h1, h2, h3, h4⟩ := hr
    subst h4
    subst hs
    rw [succ_mod h3 hlim]
    exact ⟨a, inv_local h (p := .tryRelease true) (by rw [hpc]; rfl) rfl trivial (by omega) hlim h.log
      ⟨by omega, h2, by omega⟩⟩
  case tryRelease b =>
    injection hs with hs
    have hr := hown rfl
    subst hs
    cases b with
    | true =>
      simp only [R] at hr
      refine ⟨{ a with count := a.count + 1 }, inv_release h (p := .idle) (by rw [hpc]; rfl) rfl trivial ?_ hr.1 hr.2.1⟩
      simp only [replay, St.at, St.release, h.log, Option.bind_some, absStep]
      rw [if_pos hr.2.2]; rfl
    | false =>
      simp only [R] at hr
      refine ⟨a, inv_release h (p := .idle) (by rw [hpc]; rfl) rfl trivial ?_ hr.1 hr.2.1⟩
      simp only [replay, St.at, St.release, h.log, Option.bind_some, absStep]
      rw [if_neg (by omega)]; rfl
  case unEnter => exact ⟨a, inv_take h (p := .unTest) rfl trivial (fun _ _ h1 h2 => ⟨h1, h2⟩) hs⟩
  case unTest =>
    injection hs with hs
    have hr := hown rfl
    simp only [R] at hr
    split at hs <;> subst hs
    · rename_i h0
      exact ⟨a, inv_local h (p := .unLoad) (by rw [hpc]; rfl) rfl trivial hcnt hlim h.log ⟨hr.1, hr.2, h0⟩⟩
    · exact ⟨a, inv_local h (p := .unRelease false) (by rw [hpc]; rfl) rfl trivial hcnt hlim h.log
        ⟨hr.1, hr.2, by omega⟩⟩
  case unLoad =>
    injection hs with hs
    have hr := hown rfl
    simp only [R] at hr
    subst hs
    exact ⟨a, inv_local h (p := .unStore s.count) (by rw [hpc]; rfl) rfl trivial hcnt hlim h.log
      ⟨hr.1, hr.2.1, hr.2.2, rfl⟩⟩
  case unStore x =>
    injection hs with hs
    have hr := hown rfl
    simp only [R] at hr
    obtain ⟨h1, h2, h3, h4⟩ := hr
    subst h4
    subst hs
    rw [pred_mod h3 hcnt]
    exact ⟨a, inv_local h (p := .unRelease true) (by rw [hpc]; rfl) rfl trivial (by omega) hlim h.log
      ⟨by omega, h2⟩⟩
  case unRelease b =>
    injection hs with hs
    have hr := hown rfl
    subst hs
    cases b with
    | true =>
      simp only [R] at hr
      refine ⟨{ a with count := a.count - 1 }, inv_release h (p := .unNotify) (by rw [hpc]; rfl) rfl trivial ?_
        (by simp only; omega) hr.2⟩
      simp only [replay, St.at, St.release, h.log, Option.bind_some, absStep]
      rw [if_neg (by omega)]; rfl
    | false =>
      simp only [R] at hr
      refine ⟨a, inv_release h (p := .idle) (by rw [hpc]; rfl) rfl trivial ?_ hr.1 hr.2.1⟩
      simp only [replay, St.at, St.release, h.log, Option.bind_some, absStep]
      rw [if_pos (by omega)]; rfl
  case setEnter m => exact ⟨a, inv_take h (p := .setTest m) rfl harg (fun _ _ h1 h2 => ⟨h1, h2⟩) hs⟩
  case setTest m =>
    injection hs with hs
    have hr := hown rfl
    simp only [R] at hr
    subst hs
    exact ⟨a, inv_local h (p := .setStore m _) (by rw [hpc]; rfl) rfl harg hcnt hlim h.log hr⟩
  case setStore m g =>
    injection hs with hs
    have hr := hown rfl
    simp only [R] at hr
    subst hs
    exact ⟨a, inv_local h (p := .setRelease m g) (by rw [hpc]; rfl) rfl harg hcnt harg h.log ⟨hr.1, rfl⟩⟩
  case setRelease m g =>
    injection hs with hs
    have hr := hown rfl
    simp only [R] at hr
    subst hs
    have hl : replay n (.setDone t m :: s.log) = some { a with avail := m } := by
      simp only [replay, h.log, Option.bind_some, absStep]
    cases g
    · exact ⟨_, inv_release h (p := .idle) (by rw [hpc]; rfl) rfl trivial hl hr.1 hr.2⟩
    · exact ⟨_, inv_release h (p := .setNotify) (by rw [hpc]; rfl) rfl trivial hl hr.1 hr.2⟩
  case cntEnter => exact ⟨a, inv_take h (p := .cntRead) rfl trivial (fun _ _ h1 h2 => ⟨h1, h2⟩) hs⟩
  case cntRead =>
    injection hs with hs
    have hr := hown rfl
    simp only [R] at hr
    subst hs
    exact ⟨a, inv_local h (p := .cntRelease s.count) (by rw [hpc]; rfl) rfl trivial hcnt hlim h.log ⟨hr.1, hr.2, rfl⟩⟩
  case cntRelease x =>
    injection hs with hs
    have hr := hown rfl
    simp only [R] at hr
    subst hs
    refine ⟨a, inv_release h (p := .idle) (by rw [hpc]; rfl) rfl trivial ?_ hr.1 hr.2.1⟩
    simp only [replay, St.at, St.release, h.log, Option.bind_some, absStep]
    rw [if_pos (by omega)]
  case maxRead =>
    injection hs with hs
    subst hs
    refine ⟨a, inv_outside h (p := .idle) (by rw [hpc]; rfl) rfl trivial ?_⟩
    simp only [replay, St.at, h.log, Option.bind_some, absStep]

theorem inv_step {n : Nat} {s s' : St} {a : Abs} (h : Inv n s a) (l : Nat × Act) (hs : step s l = some s') :
    ∃ a', Inv n s' a' := by
  obtain ⟨t, act⟩ := l
  cases act with
  | go => exact inv_go h t hs
  | call op =>
    simp only [step] at hs
    split at hs
    · rename_i hpc
      have ho : Owns (s.pc t) = false := by rw [hpc]; rfl
      cases op <;> simp only [enter] at hs
      case setAvail m =>
        split at hs
        · rename_i hm
          injection hs with hs
          subst hs
          exact ⟨a, inv_outside h (p := .setEnter m) ho rfl hm h.log⟩
        · cases hs
      case unlock =>
        injection hs with hs
        subst hs
        refine ⟨a, inv_outside h (p := .unEnter) ho rfl trivial ?_⟩
        simp only [replay, St.at, h.log, Option.bind_some, absStep]
      case lock =>
        injection hs with hs
        subst hs
        exact ⟨a, inv_outside h (p := .lockEnter) ho rfl trivial h.log⟩
      case tryLock =>
        injection hs with hs
        subst hs
        exact ⟨a, inv_outside h (p := .tryEnter) ho rfl trivial h.log⟩
      case count =>
        injection hs with hs
        subst hs
        exact ⟨a, inv_outside h (p := .cntEnter) ho rfl trivial h.log⟩
      case maxCount =>
        injection hs with hs
        subst hs
        exact ⟨a, inv_outside h (p := .maxRead) ho rfl trivial h.log⟩
    · cases hs
  | timeout =>
    simp only [step] at hs
    split at hs
    · rename_i hpc
      injection hs with hs
      subst hs
      exact ⟨a, inv_outside h (p := .woken) (by rw [hpc]; rfl) rfl trivial h.log⟩
    · cases hs
  | notify u =>
    simp only [step, notify] at hs
    split at hs
    · rename_i hpc
      have ho : Owns (s.pc t) = false := by rcases hpc with hpc | hpc <;> rw [hpc] <;> rfl
      have h1 := inv_outside h (p := .idle) ho rfl trivial h.log
      cases u with
      | none =>
        injection hs with hs
        subst hs
        exact ⟨a, h1⟩
      | some u =>
        simp only at hs
        split at hs
        · rename_i hu
          injection hs with hs
          subst hs
          have hne : u ≠ t := fun he => by
            subst he; rw [hu] at hpc; rcases hpc with hpc | hpc <;> cases hpc
          have ho' : Owns ((s.at t .idle).pc u) = false := by simp [St.at, hne, hu, Owns]
          exact ⟨a, inv_outside h1 (t := u) (p := .woken) ho' rfl trivial h.log⟩
        · cases hs
    · cases hs

theorem exec_append (s : St) (l1 l2 : List (Nat × Act)) : exec s (l1 ++ l2) = (exec s l1).bind fun s' => exec s' l2 := by
  induction l1 generalizing s with
  | nil => rfl
  | cons l l1 ih =>
    simp only [List.cons_append, exec]
    cases step s l with
    | none => rfl
    | some s' => simp only [Option.bind_some]; exact ih s'

theorem inv_exec {n : Nat} : ∀ (sched : List (Nat × Act)) {s s' : St} {a : Abs}, Inv n s a → exec s sched = some s' →
    ∃ a', Inv n s' a' := by
  intro sched
  induction sched with
  | nil => intro s s' a h hs; injection hs with hs; subst hs; exact ⟨a, h⟩
  | cons l ls ih =>
    intro s s' a h hs
    simp only [exec] at hs
    cases hst : step s l with
    | none => rw [hst] at hs; cases hs
    | some s1 =>
      rw [hst] at hs
      obtain ⟨a1, h1⟩ := inv_step h l hst
      exact ih h1 hs

theorem reach_inv {n : Nat} (hn : n < W) {s : St} (h : Reach n s) : ∃ a, Inv n s a := by
  obtain ⟨sched, hs⟩ := h
  exact inv_exec sched (inv_init hn) hs

end Verif.Sem
