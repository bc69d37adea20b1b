import Verif.Common

/-!
concurrency/safe.h: `lockable_t<T, mutex_t>`, an object of type `T` that is its own mutex.

The object consists of `n` parts (`cells`); a function of `T` reads or writes parts one at a time, so an assignment or a copy of
the whole object takes many steps, in which other threads can take steps too. `mutex_t` is a mutex with exclusive and shared ownership
(`std::shared_timed_mutex`); `std::mutex` is the case in which nobody calls `lock_shared`.

Threads are natural numbers. They may call anything at any time; a schedule is any list of calls and steps.

Simplifications: sequentially consistent memory (the absence of data races is proved, so nothing else can be observed), the number of
parts is fixed, the log is ghost state. Taking a mutex that one already has, and releasing one that one has not, are undefined.
-/

namespace Verif.Lockable

/-- What a thread is doing. -/
inductive Pc where
  | idle
  | storing (k : Nat) (vals : Nat → Int)  -- inside `operator=` (safe.h:57-63, 69-75), the parts before `k` are stored
  | loading (acc : List Int)              -- inside the copy of the object by a constructor (safe.h:31-32, 37-40), with the parts read

/-- What the threads did to the object, in the order in which the calls ended. -/
inductive Ev where
  | read (t i : Nat) (v : Int)
  | write (t i : Nat) (v : Int)
  | assigned (t : Nat) (vals : Nat → Int)
  | copied (t : Nat) (vals : List Int)

def Ev.by : Ev → Nat
  | .read t _ _ | .write t _ _ | .assigned t _ | .copied t _ => t

def Ev.writes : Ev → Bool
  | .write .. | .assigned .. => true
  | _ => false

structure St where
  excl    : Option Nat    -- owner of the mutex
  readers : List Nat      -- shared owners
  cells   : Nat → Int
  pc      : Nat → Pc
  log     : List Ev

def St.init (c : Nat → Int) : St := ⟨none, [], c, fun _ => .idle, []⟩

/-- safe.h:17: what a thread can do with the object: the functions of `mutex_t`, which `lockable_t` inherits; single accesses through functions
of `T`, which it inherits too; and the assignment and copy of the whole object. `go` is a further step of these. -/
inductive Act where
  | lock | unlock | lockShared | unlockShared
  | read (i : Nat) | write (i : Nat) (v : Int)
  | assign (vals : Nat → Int) | copy | go

def setPc (s : St) (t : Nat) (p : Pc) : St := { s with pc := fun u => if u = t then p else s.pc u }

def setCell (c : Nat → Int) (i : Nat) (v : Int) : Nat → Int := fun j => if j = i then v else c j

/-- One step of thread `t`; `none` when it has to wait. Neither the assignments (safe.h:57-63, 69-75) nor the constructors
(safe.h:31-32, 37-40, 47-50) take the mutex. -/
def step (n : Nat) (s : St) (t : Nat) (a : Act) : Option (Res St) :=
  match s.pc t, a with
  | .idle, .lock =>
    if s.excl = some t ∨ t ∈ s.readers then some .ub
    else if s.excl = none ∧ s.readers = [] then some (.ok { s with excl := some t }) else none
  | .idle, .unlock => if s.excl = some t then some (.ok { s with excl := none }) else some .ub
  | .idle, .lockShared =>
    if s.excl = some t ∨ t ∈ s.readers then some .ub
    else if s.excl = none then some (.ok { s with readers := t :: s.readers }) else none
  | .idle, .unlockShared => if t ∈ s.readers then some (.ok { s with readers := s.readers.erase t }) else some .ub
  | .idle, .read i => some (.ok { s with log := s.log ++ [.read t i (s.cells i)] })
  | .idle, .write i v => some (.ok { s with cells := setCell s.cells i v, log := s.log ++ [.write t i v] })
  | .idle, .assign vals => some (.ok (setPc s t (.storing 0 vals)))
  | .idle, .copy => some (.ok (setPc s t (.loading [])))
  | .storing k vals, .go =>
    if k < n then some (.ok (setPc { s with cells := setCell s.cells k (vals k) } t (.storing (k + 1) vals)))
    else some (.ok (setPc { s with log := s.log ++ [.assigned t vals] } t .idle))
  | .loading acc, .go =>
    if acc.length < n then some (.ok (setPc s t (.loading (acc ++ [s.cells acc.length]))))
    else some (.ok (setPc { s with log := s.log ++ [.copied t acc] } t .idle))
  | _, _ => none

/-! ### Specification -/

namespace Spec

/-- One thread uses a plain object: `c` before, the events, and whether every read and copy gives what the object contains. -/
def Legal (n : Nat) (c : Nat → Int) : List Ev → Prop
  | [] => True
  | .read _ i v :: l => v = c i ∧ Legal n c l
  | .write _ i v :: l => Legal n (fun j => if j = i then v else c j) l
  | .assigned _ vals :: l => Legal n (fun j => if j < n then vals j else c j) l
  | .copied _ xs :: l => xs = (List.range n).map c ∧ Legal n c l

end Spec
open Spec

/-- The discipline: a thread reads only while it owns the mutex, at least shared, and writes only while it owns it exclusively; it does not
take the mutex twice nor release what it has not, and finishes what it does first. -/
def Allowed (s : St) (t : Nat) : Act → Prop
  | .lock | .lockShared => s.excl ≠ some t ∧ t ∉ s.readers
  | .unlock => s.excl = some t
  | .unlockShared => t ∈ s.readers
  | .read _ | .copy => s.excl = some t ∨ t ∈ s.readers
  | .write _ _ | .assign _ => s.excl = some t
  | .go => True

/-- The part that an action accesses, and whether it writes it. -/
def access (n : Nat) (s : St) (t : Nat) (a : Act) : Option (Nat × Bool) :=
  match s.pc t, a with
  | .idle, .read i => some (i, false)
  | .idle, .write i _ => some (i, true)
  | .storing k _, .go => if k < n then some (k, true) else none
  | .loading acc, .go => if acc.length < n then some (acc.length, false) else none
  | _, _ => none

/-- A schedule all of whose actions follow the discipline. -/
inductive Run (n : Nat) : St → List (Nat × Act) → Res St → Prop
  | nil (s) : Run n s [] (.ok s)
  | ub {s t a l} : Allowed s t a → step n s t a = some .ub → Run n s ((t, a) :: l) .ub
  | cons {s t a s' l r} : Allowed s t a → step n s t a = some (.ok s') → Run n s' l r → Run n s ((t, a) :: l) r

/-! ### Invariant -/

/-- The contents after the events. -/
def replay (n : Nat) (c : Nat → Int) : List Ev → Nat → Int
  | [] => c
  | .write _ i v :: l => replay n (fun j => if j = i then v else c j) l
  | .assigned _ vals :: l => replay n (fun j => if j < n then vals j else c j) l
  | _ :: l => replay n c l

theorem replay_append (n : Nat) (l l' : List Ev) : ∀ c, replay n c (l ++ l') = replay n (replay n c l) l' := by
  induction l with
  | nil => intro c; rfl
  | cons e l ih => intro c; cases e <;> exact ih _

theorem legal_append (n : Nat) (l l' : List Ev) : ∀ c, Legal n c (l ++ l') ↔ Legal n c l ∧ Legal n (replay n c l) l' := by
  induction l with
  | nil => intro c; simp [Legal, replay]
  | cons e l ih => intro c; cases e <;> simp [Legal, replay, ih, and_assoc]

structure Inv (n : Nat) (c0 : Nat → Int) (s : St) : Prop where
  legal : Legal n c0 s.log
  excl_alone : s.excl ≠ none → s.readers = []
  nodup : s.readers.Nodup
  storing : ∀ t k vals, s.pc t = .storing k vals → s.excl = some t ∧ k ≤ n ∧
    s.cells = fun i => if i < k then vals i else replay n c0 s.log i
  loading : ∀ t acc, s.pc t = .loading acc → (s.excl = some t ∨ t ∈ s.readers) ∧ acc.length ≤ n ∧
    acc = (List.range acc.length).map (replay n c0 s.log)
  quiet : (∀ t k vals, s.pc t ≠ .storing k vals) → s.cells = replay n c0 s.log

theorem Inv.init (n : Nat) (c : Nat → Int) : Inv n c (.init c) :=
  ⟨trivial, fun h => absurd rfl h, List.nodup_nil, (fun _ _ _ h => nomatch h), (fun _ _ h => nomatch h), fun _ => rfl⟩

/-- A thread that owns the mutex, in either way, while nobody is storing or it is its own assignment, sees the contents. -/
theorem Inv.cells_eq {n : Nat} {c0 : Nat → Int} {s : St} (h : Inv n c0 s) {t : Nat} (ho : s.excl = some t ∨ t ∈ s.readers)
    (hp : ∀ k vals, s.pc t ≠ .storing k vals) : s.cells = replay n c0 s.log := by
  refine h.quiet fun u k vals hu => ?_
  have hx := (h.storing u k vals hu).1
  rcases ho with ho | ho
  · rw [hx] at ho; injection ho with ho; exact hp k vals (ho ▸ hu)
  · rw [h.excl_alone (by rw [hx]; simp)] at ho; simp at ho

theorem Inv.step {n : Nat} {c0 : Nat → Int} {s : St} (h : Inv n c0 s) {t : Nat} {a : Act} (ha : Allowed s t a) {r : Res St}
    (hs : step n s t a = some r) : ∃ s', r = .ok s' ∧ Inv n c0 s' := by
  unfold Lockable.step at hs
  split at hs
  · -- lock
    rename_i hp
    simp only [Allowed] at ha
    rw [if_neg (fun h1 => h1.elim ha.1 ha.2)] at hs
    split at hs
    · rename_i hfree
      injection hs with hs
      refine ⟨_, hs.symm, h.legal, fun _ => hfree.2, h.nodup, ?_, ?_, h.quiet⟩
      · intro u k vals hu
        have := (h.storing u k vals hu).1
        rw [hfree.1] at this; simp at this
      · intro u acc hu
        have := (h.loading u acc hu).1
        rw [hfree.1, hfree.2] at this; simp at this
    · simp at hs
  · -- unlock
    rename_i hp
    simp only [Allowed] at ha
    rw [if_pos ha] at hs
    injection hs with hs
    have hr : s.readers = [] := h.excl_alone (by rw [ha]; simp)
    refine ⟨_, hs.symm, h.legal, fun _ => hr, h.nodup, ?_, ?_, h.quiet⟩
    · intro u k vals hu
      have := (h.storing u k vals hu).1
      rw [ha] at this; injection this with this
      subst this
      exact absurd (hp.symm.trans hu) (by simp)
    · intro u acc hu
      have := (h.loading u acc hu).1
      rw [ha, hr] at this
      simp at this
      subst this
      exact absurd (hp.symm.trans hu) (by simp)
  · -- lockShared
    rename_i hp
    simp only [Allowed] at ha
    rw [if_neg (fun h1 => h1.elim ha.1 ha.2)] at hs
    split at hs
    · rename_i hfree
      injection hs with hs
      refine ⟨_, hs.symm, h.legal, fun hne => absurd hfree hne, List.nodup_cons.2 ⟨ha.2, h.nodup⟩, h.storing, ?_, h.quiet⟩
      intro u acc hu
      obtain ⟨h1, h2⟩ := h.loading u acc hu
      exact ⟨h1.imp id (List.mem_cons_of_mem _), h2⟩
    · simp at hs
  · -- unlockShared
    rename_i hp
    simp only [Allowed] at ha
    rw [if_pos ha] at hs
    injection hs with hs
    refine ⟨_, hs.symm, h.legal, fun hne => ?_, h.nodup.erase t, h.storing, ?_, h.quiet⟩
    · show s.readers.erase t = []
      rw [h.excl_alone hne]; rfl
    · intro u acc hu
      obtain ⟨h1, h2⟩ := h.loading u acc hu
      refine ⟨h1.imp id fun hm => ?_, h2⟩
      have hne : u ≠ t := by
        rintro rfl
        exact absurd (hp.symm.trans hu) (by simp)
      exact (List.mem_erase_of_ne hne).2 hm
  · -- read
    rename_i i hp
    simp only [Allowed] at ha
    injection hs with hs
    have hc := h.cells_eq ha (by rw [hp]; simp)
    have hr : replay n c0 (s.log ++ [.read t i (s.cells i)]) = replay n c0 s.log := by rw [replay_append]; rfl
    refine ⟨_, hs.symm, ?_, h.excl_alone, h.nodup, ?_, ?_, ?_⟩
    · exact (legal_append ..).2 ⟨h.legal, by simp [Legal, hc]⟩
    · simp only [hr]; exact h.storing
    · simp only [hr]; exact h.loading
    · simp only [hr]; exact h.quiet
  · -- write
    rename_i i v hp
    simp only [Allowed] at ha
    injection hs with hs
    have hc := h.cells_eq (.inl ha) (by rw [hp]; simp)
    have hread : s.readers = [] := h.excl_alone (by rw [ha]; simp)
    have hr : replay n c0 (s.log ++ [.write t i v]) = setCell (replay n c0 s.log) i v := by rw [replay_append]; rfl
    refine ⟨_, hs.symm, ?_, h.excl_alone, h.nodup, ?_, ?_, ?_⟩
    · exact (legal_append ..).2 ⟨h.legal, by simp [Legal]⟩
    · intro u k vals hu
      have := (h.storing u k vals hu).1
      rw [ha] at this; injection this with this; subst this
      exact absurd (hp.symm.trans hu) (by simp)
    · intro u acc hu
      have := (h.loading u acc hu).1
      rw [ha, hread] at this; simp at this; subst this
      exact absurd (hp.symm.trans hu) (by simp)
    · intro _
      show setCell s.cells i v = _
      rw [hr, hc]
  · -- assign
    rename_i vals hp
    simp only [Allowed] at ha
    injection hs with hs
    have hc := h.cells_eq (.inl ha) (by rw [hp]; simp)
    refine ⟨_, hs.symm, h.legal, h.excl_alone, h.nodup, ?_, ?_, ?_⟩
    · intro u k vals' hu
      simp only [setPc] at hu
      split at hu
      · rename_i e; subst e
        injection hu with h1 h2; subst h1
        exact ⟨ha, Nat.zero_le _, by funext i; simp [hc, setPc]⟩
      · exact h.storing u k vals' hu
    · intro u acc hu
      simp only [setPc] at hu
      split at hu
      · simp at hu
      · exact h.loading u acc hu
    · intro hq
      exact absurd (by simp [setPc]) (hq t 0 vals)
  · -- copy
    rename_i hp
    simp only [Allowed] at ha
    injection hs with hs
    refine ⟨_, hs.symm, h.legal, h.excl_alone, h.nodup, ?_, ?_, ?_⟩
    · intro u k vals' hu
      simp only [setPc] at hu
      split at hu
      · simp at hu
      · exact h.storing u k vals' hu
    · intro u acc hu
      simp only [setPc] at hu
      split at hu
      · rename_i e; subst e
        injection hu with h1; subst h1
        exact ⟨ha, Nat.zero_le _, rfl⟩
      · exact h.loading u acc hu
    · intro hq
      exact h.cells_eq ha (by rw [hp]; simp)
  · -- storing
    rename_i k vals hp
    obtain ⟨hx, hk, hcell⟩ := h.storing t k vals hp
    have hread : s.readers = [] := h.excl_alone (by rw [hx]; simp)
    split at hs
    · rename_i hlt
      injection hs with hs
      refine ⟨_, hs.symm, h.legal, h.excl_alone, h.nodup, ?_, ?_, ?_⟩
      · intro u k' vals' hu
        simp only [setPc] at hu
        split at hu
        · rename_i e; subst e
          injection hu with h1 h2; subst h1; subst h2
          refine ⟨hx, hlt, ?_⟩
          show setCell s.cells k (vals k) = _
          funext i
          simp only [setCell, hcell, setPc]
          by_cases h1 : i = k
          · subst h1; simp
          · rw [if_neg h1]
            by_cases h2 : i < k
            · rw [if_pos h2, if_pos (by omega)]
            · rw [if_neg h2, if_neg (by omega)]
        · rename_i e
          have := (h.storing u k' vals' hu).1
          rw [hx] at this; injection this with this
          exact absurd this.symm e
      · intro u acc hu
        simp only [setPc] at hu
        split at hu
        · simp at hu
        · rename_i e
          have := (h.loading u acc hu).1
          rw [hx, hread] at this; simp at this
          exact absurd this.symm e
      · intro hq
        exact absurd (by simp [setPc]) (hq t (k + 1) vals)
    · rename_i hlt
      injection hs with hs
      have hkn : k = n := by omega
      subst hkn
      have hr : replay k c0 (s.log ++ [.assigned t vals]) = s.cells := by rw [replay_append, hcell]; rfl
      refine ⟨_, hs.symm, ?_, h.excl_alone, h.nodup, ?_, ?_, ?_⟩
      · exact (legal_append ..).2 ⟨h.legal, by simp [Legal]⟩
      · intro u k' vals' hu
        simp only [setPc] at hu
        split at hu
        · simp at hu
        · rename_i e
          have := (h.storing u k' vals' hu).1
          rw [hx] at this; injection this with this
          exact absurd this.symm e
      · intro u acc hu
        simp only [setPc] at hu
        split at hu
        · simp at hu
        · rename_i e
          have := (h.loading u acc hu).1
          rw [hx, hread] at this; simp at this
          exact absurd this.symm e
      · intro _
        exact hr.symm
  · -- loading
    rename_i acc hp
    obtain ⟨hx, hk, hacc⟩ := h.loading t acc hp
    have hc := h.cells_eq hx (by rw [hp]; simp)
    split at hs
    · rename_i hlt
      injection hs with hs
      refine ⟨_, hs.symm, h.legal, h.excl_alone, h.nodup, ?_, ?_, ?_⟩
      · intro u k vals hu
        simp only [setPc] at hu
        split at hu
        · simp at hu
        · exact h.storing u k vals hu
      · intro u acc' hu
        simp only [setPc] at hu
        split at hu
        · rename_i e; subst e
          injection hu with h1; subst h1
          refine ⟨hx, by simp; omega, ?_⟩
          simp only [List.length_append, List.length_singleton, List.range_succ, List.map_append, List.map_cons, List.map_nil, setPc]
          rw [← hacc, hc]
        · exact h.loading u acc' hu
      · intro _; exact hc
    · rename_i hlt
      injection hs with hs
      have hkn : acc.length = n := by omega
      have hr : replay n c0 (s.log ++ [.copied t acc]) = replay n c0 s.log := by rw [replay_append]; rfl
      refine ⟨_, hs.symm, ?_, h.excl_alone, h.nodup, ?_, ?_, ?_⟩
      · refine (legal_append ..).2 ⟨h.legal, ?_, trivial⟩
        rw [hkn] at hacc; exact hacc
      · intro u k vals hu
        simp only [setPc] at hu
        split at hu
        · simp at hu
        · obtain ⟨h1, h2, h3⟩ := h.storing u k vals hu
          exact ⟨h1, h2, by simp only [setPc, hr]; exact h3⟩
      · intro u acc' hu
        simp only [setPc] at hu
        split at hu
        · simp at hu
        · obtain ⟨h1, h2, h3⟩ := h.loading u acc' hu
          exact ⟨h1, h2, by simp only [setPc, hr]; exact h3⟩
      · intro _
        simp only [setPc, hr]
        exact hc
  · simp at hs

theorem Inv.run {n : Nat} {c0 : Nat → Int} {l : List (Nat × Act)} {s : St} {r : Res St} (hr : Run n s l r) :
    Inv n c0 s → ∃ s', r = .ok s' ∧ Inv n c0 s' := by
  induction hr with
  | nil s => exact fun h => ⟨s, rfl, h⟩
  | ub ha hs => intro h; obtain ⟨s', e, _⟩ := h.step ha hs; cases e
  | cons ha hs _ ih =>
    intro h
    obtain ⟨s', e, h'⟩ := h.step ha hs
    injection e with e; subst e
    exact ih h'

/-! ### C148 -/

/-- **C148.** If every thread follows the discipline, nothing undefined happens and what the threads read and copy is what one thread would read and
copy that made the same calls on a plain object, one after the other. -/
theorem C148_atomic (n : Nat) (c : Nat → Int) (l : List (Nat × Act)) (r : Res St) (h : Run n (.init c) l r) :
    ∃ s, r = .ok s ∧ Legal n c s.log := by
  obtain ⟨s, e, hi⟩ := Inv.run h (Inv.init n c)
  exact ⟨s, e, hi.legal⟩

/-- **C148.** No data race: two threads never stand before accesses to the same part, one of them a write. -/
theorem C148_no_race (n : Nat) (c : Nat → Int) (l : List (Nat × Act)) (s : St) (h : Run n (.init c) l (.ok s))
    (t u : Nat) (htu : t ≠ u) (a b : Act) (ha : Allowed s t a) (hb : Allowed s u b) (i : Nat) (w : Bool)
    (h1 : access n s t a = some (i, true)) (h2 : access n s u b = some (i, w)) : False := by
  obtain ⟨s', e, hi⟩ := Inv.run h (Inv.init n c)
  injection e with e; subst e
  have ht : s.excl = some t := by
    unfold access at h1
    split at h1 <;> try (simp at h1; done)
    · exact ha
    · rename_i k vals hp; exact (hi.storing t k vals hp).1
  have hu : s.excl = some u ∨ u ∈ s.readers := by
    unfold access at h2
    split at h2 <;> try (simp at h2; done)
    · exact hb
    · exact .inl hb
    · rename_i k vals hp; exact .inl (hi.storing u k vals hp).1
    · rename_i acc hp; exact (hi.loading u acc hp).1
  rw [hi.excl_alone (by rw [ht]; simp), ht] at hu
  simp at hu
  exact htu hu

theorem step_log {n : Nat} {s s' : St} {t : Nat} {a : Act} (hs : step n s t a = some (.ok s')) :
    ∃ es, s'.log = s.log ++ es ∧ ∀ e ∈ es, e.by = t := by
  unfold step at hs
  split at hs
  all_goals (repeat' split at hs)
  all_goals first
    | (cases hs; done)
    | (injection hs with hs; injection hs with hs; subst hs; exact ⟨[], (List.append_nil _).symm, fun _ h => nomatch h⟩)
    | (injection hs with hs; injection hs with hs; subst hs; exact ⟨[_], rfl, by simp [Ev.by]⟩)

/-- Who adds an event may. -/
theorem step_owner {n : Nat} {c0 : Nat → Int} {s s' : St} (h : Inv n c0 s) {t : Nat} {a : Act} (ha : Allowed s t a)
    (hs : step n s t a = some (.ok s')) : ∃ es, s'.log = s.log ++ es ∧
      ∀ e ∈ es, e.by = t ∧ (s.excl = some t ∨ t ∈ s.readers) ∧ (e.writes = true → s.excl = some t) := by
  unfold step at hs
  split at hs
  all_goals (repeat' split at hs)
  all_goals first
    | (cases hs; done)
    | (injection hs with hs; injection hs with hs; subst hs; exact ⟨[], (List.append_nil _).symm, fun _ h => nomatch h⟩)
    | skip
  · injection hs with hs; injection hs with hs; subst hs
    exact ⟨[_], rfl, by simpa [Ev.by, Ev.writes, Allowed] using ha⟩
  · injection hs with hs; injection hs with hs; subst hs
    have ha' : s.excl = some t := ha
    exact ⟨[_], rfl, by simp [Ev.by, ha']⟩
  · rename_i k vals hp _
    injection hs with hs; injection hs with hs; subst hs
    have := (h.storing t k vals hp).1
    exact ⟨[_], rfl, by simp [Ev.by, this]⟩
  · rename_i acc hp _
    injection hs with hs; injection hs with hs; subst hs
    have := (h.loading t acc hp).1
    exact ⟨[_], rfl, by simpa [Ev.by, Ev.writes] using this⟩

theorem step_excl {n : Nat} {s s' : St} {t u : Nat} {a : Act} (hs : step n s u a = some (.ok s')) (ht : s.excl = some t)
    (hu : (u, a) ≠ (t, .unlock)) : s'.excl = some t := by
  unfold step at hs
  split at hs
  all_goals (repeat' split at hs)
  all_goals first
    | (cases hs; done)
    | (injection hs with hs; injection hs with hs; subst hs; exact ht)
    | skip
  · rename_i h1; rw [ht] at h1; simp at h1
  · rename_i h1; rw [ht] at h1; injection h1 with h1; subst h1; exact absurd rfl hu

theorem step_readers {n : Nat} {s s' : St} {t u : Nat} {a : Act} (hs : step n s u a = some (.ok s')) (ht : t ∈ s.readers)
    (hu : (u, a) ≠ (t, .unlockShared)) : t ∈ s'.readers := by
  unfold step at hs
  split at hs
  all_goals (repeat' split at hs)
  all_goals first
    | (cases hs; done)
    | (injection hs with hs; injection hs with hs; subst hs; exact ht)
    | (injection hs with hs; injection hs with hs; subst hs; exact List.mem_cons_of_mem _ ht)
    | skip
  injection hs with hs; injection hs with hs; subst hs
  refine (List.mem_erase_of_ne ?_).2 ht
  rintro rfl
  exact hu rfl

theorem isolated_aux {n : Nat} {c0 : Nat → Int} {t : Nat} {l : List (Nat × Act)} {s : St} {r : Res St} (hr : Run n s l r) :
    Inv n c0 s → s.excl = some t → (t, Act.unlock) ∉ l → ∀ s', r = .ok s' → ∃ es, s'.log = s.log ++ es ∧ ∀ e ∈ es, e.by = t := by
  induction hr with
  | nil s => intro _ _ _ s' e; injection e with e; subst e; exact ⟨[], by simp, by simp⟩
  | ub ha hs => intro _ _ _ s' e; cases e
  | @cons s u a s1 l r ha hs _ ih =>
    intro hi ht hn s' e
    obtain ⟨_, e1, hi1⟩ := hi.step ha hs
    injection e1 with e1; subst e1
    obtain ⟨es, he, hes⟩ := step_owner hi ha hs
    have hn' : (u, a) ≠ (t, .unlock) := fun hc => hn (by rw [hc]; exact List.mem_cons_self)
    obtain ⟨es', he', hes'⟩ := ih hi1 (step_excl hs ht hn') (fun hc => hn (List.mem_cons_of_mem _ hc)) s' e
    refine ⟨es ++ es', by rw [he', he, List.append_assoc], fun e hm => ?_⟩
    rcases List.mem_append.1 hm with hm | hm
    · obtain ⟨h1, h2, _⟩ := hes e hm
      rw [h1]
      rcases h2 with h2 | h2
      · rw [ht] at h2; injection h2 with h2; exact h2.symm
      · rw [hi.excl_alone (by rw [ht]; simp)] at h2; simp at h2
    · exact hes' e hm

/-- **C148.** From the time a thread has taken the mutex until it releases it no other thread reads or changes the object: all its accesses of
this time are one atomic operation. -/
theorem C148_isolated (n : Nat) (c : Nat → Int) (l l' : List (Nat × Act)) (s s' : St) (t : Nat)
    (h : Run n (.init c) l (.ok s)) (ht : s.excl = some t) (h' : Run n s l' (.ok s')) (hn : (t, Act.unlock) ∉ l') :
    ∃ es, s'.log = s.log ++ es ∧ ∀ e ∈ es, e.by = t := by
  obtain ⟨_, e, hi⟩ := Inv.run h (Inv.init n c)
  injection e with e; subst e
  exact isolated_aux h' hi ht hn s' rfl

theorem shared_aux {n : Nat} {c0 : Nat → Int} {t : Nat} {l : List (Nat × Act)} {s : St} {r : Res St} (hr : Run n s l r) :
    Inv n c0 s → t ∈ s.readers → (t, Act.unlockShared) ∉ l → ∀ s', r = .ok s' →
      ∃ es, s'.log = s.log ++ es ∧ ∀ e ∈ es, e.writes = false := by
  induction hr with
  | nil s => intro _ _ _ s' e; injection e with e; subst e; exact ⟨[], by simp, by simp⟩
  | ub ha hs => intro _ _ _ s' e; cases e
  | @cons s u a s1 l r ha hs _ ih =>
    intro hi ht hn s' e
    obtain ⟨_, e1, hi1⟩ := hi.step ha hs
    injection e1 with e1; subst e1
    obtain ⟨es, he, hes⟩ := step_owner hi ha hs
    have hn' : (u, a) ≠ (t, .unlockShared) := fun hc => hn (by rw [hc]; exact List.mem_cons_self)
    obtain ⟨es', he', hes'⟩ := ih hi1 (step_readers hs ht hn') (fun hc => hn (List.mem_cons_of_mem _ hc)) s' e
    refine ⟨es ++ es', by rw [he', he, List.append_assoc], fun e hm => ?_⟩
    rcases List.mem_append.1 hm with hm | hm
    · obtain ⟨_, _, h3⟩ := hes e hm
      cases hw : e.writes with
      | false => rfl
      | true =>
        have := h3 hw
        rw [hi.excl_alone (by rw [this]; simp)] at ht; simp at ht
    · exact hes' e hm

/-- **C148.** While a thread is a shared owner nobody changes the object. -/
theorem C148_shared (n : Nat) (c : Nat → Int) (l l' : List (Nat × Act)) (s s' : St) (t : Nat)
    (h : Run n (.init c) l (.ok s)) (ht : t ∈ s.readers) (h' : Run n s l' (.ok s')) (hn : (t, Act.unlockShared) ∉ l') :
    ∃ es, s'.log = s.log ++ es ∧ ∀ e ∈ es, e.writes = false := by
  obtain ⟨_, e, hi⟩ := Inv.run h (Inv.init n c)
  injection e with e; subst e
  exact shared_aux h' hi ht hn s' rfl

/-- **C148.** The mutex is never stuck: when nobody owns it any thread that does nothing else can take it. -/
theorem C148_available (n : Nat) (s : St) (t : Nat) (h1 : s.excl = none) (h2 : s.readers = []) (hp : s.pc t = .idle) :
    step n s t .lock = some (.ok { s with excl := some t }) := by
  simp [step, hp, h1, h2]

/-! Runs are computable when the discipline is tested on the way. -/

def exec (n : Nat) : St → List (Nat × Act) → Option (Res St)
  | s, [] => some (.ok s)
  | s, (t, a) :: l =>
    match step n s t a with
    | none => none
    | some .ub => some .ub
    | some (.exc e) => some (.exc e)
    | some (.ok s') => exec n s' l

/-- The values read and copied. -/
def outcomes (r : Option (Res St)) : Option (List (Nat × List Int)) :=
  match r with
  | some (.ok s) => some (s.log.filterMap fun e => match e with
    | .read t _ v => some (t, [v])
    | .copied t vs => some (t, vs)
    | _ => none)
  | _ => none

/-- Two threads add to part 0, a third copies, each under the mutex; the copy has to wait. -/
example : outcomes (exec 2 (.init fun _ => 5)
    [(1, .lock), (1, .read 0), (1, .write 0 6), (1, .write 1 6), (1, .unlock), (2, .lockShared), (3, .lockShared), (2, .copy), (3, .copy), (2, .go),
     (3, .go), (2, .go), (2, .go), (3, .go), (3, .go), (2, .unlockShared), (3, .unlockShared), (1, .lock), (1, .assign fun i => i), (1, .go),
     (1, .go), (1, .go), (1, .read 1)]) = some [(1, [5]), (2, [6, 6]), (3, [6, 6]), (1, [1])] := by decide +kernel

example : exec 2 (.init fun _ => 5) [(1, .lock), (2, .lock)] = none := rfl
example : exec 2 (.init fun _ => 5) [(1, .lockShared), (2, .lock)] = none := rfl
example : exec 2 (.init fun _ => 5) [(1, .lock), (1, .lock)] = some .ub := rfl
example : exec 2 (.init fun _ => 5) [(1, .unlock)] = some .ub := rfl

/-- The discipline is needed: the assignment and the copy of a `lockable_t` do not take its mutex. Thread 1 assigns the values 7, 7 to an object
with 0, 0 while thread 2 copies it, and gets 7, 0. -/
theorem C148_discipline_needed : ∃ (l : List (Nat × Act)) (s : St), (∀ p ∈ l, p.2 matches .assign _ | .copy | .go) ∧
    exec 2 (.init fun _ => 0) l = some (.ok s) ∧ ¬ Legal 2 (fun _ => 0) s.log := by
  refine ⟨[(1, .assign fun _ => 7), (2, .copy), (1, .go), (2, .go), (2, .go), (2, .go), (1, .go), (1, .go)], _, ?_, rfl, ?_⟩
  · intro p hp
    simp at hp
    rcases hp with rfl | rfl | rfl | rfl | rfl <;> rfl
  · simp [Legal, setPc, St.init, setCell]
    decide

end Verif.Lockable
