import Verif.Common
import Mathlib.Tactic.Linarith
import Mathlib.Data.Int.Init

/-!
tools/timestamp.h: `timestamp_t`. Time points are integers (ticks of `high_resolution_clock`); a history is a list of calls, each with the time that the clock
shows when it is made. A `duration_type` is the positive number of ticks of its unit (`10^6` for milliseconds on a clock of nanoseconds).

Simplifications: the counts are unbounded integers, and the conversion of the count to `double` (timestamp.h:34) is exact (true below `2^53`).
-/

namespace Verif.Timestamp

inductive Op where
  | reset
  | elapsed (unit : Nat)     -- `elapsed<duration_type>()`
  | difference (unit : Nat)  -- `difference<duration_type>()`
  deriving DecidableEq, Repr

/-- `duration_cast` ([time.duration.cast]): division that truncates towards zero. -/
def durationCast (unit : Nat) (d : Int) : Int := d.tdiv unit

/-- timestamp.h:21-24 `reset`, :31-35 `elapsed`, :41-46 `difference`, at the time `now` on the object with `_start = start`. -/
def step (start now : Int) : Op → Int × Option Int
  | .reset => (now, none)
  | .elapsed unit => (start, some (durationCast unit (now - start)))
  | .difference unit => (start, some (durationCast unit (now - start)))

def run (start : Int) : List (Int × Op) → Int × List (Option Int)
  | [] => (start, [])
  | (now, o) :: l =>
    let (s, r) := step start now o
    let (s', rs) := run s l
    (s', r :: rs)

/-- timestamp.h:15 the constructor, then calls. -/
def history (created : Int) (l : List (Int × Op)) : List (Option Int) := (run created l).2

/-! ### Specification -/

/-- The time of the construction or of the last reset among the calls. -/
def lastReset (created : Int) (l : List (Int × Op)) : Int :=
  ((l.filter fun p => decide (p.2 = .reset)).map (·.1)).getLastD created

theorem run_append (l l' : List (Int × Op)) : ∀ s, run s (l ++ l') = ((run (run s l).1 l').1, (run s l).2 ++ (run (run s l).1 l').2) := by
  induction l with
  | nil => intro s; rfl
  | cons p l ih => intro s; obtain ⟨now, o⟩ := p; simp [run, ih]

theorem run_start (l : List (Int × Op)) : ∀ s, (run s l).1 = lastReset s l := by
  induction l with
  | nil => intro s; rfl
  | cons p l ih =>
    intro s
    obtain ⟨now, o⟩ := p
    have : (run s ((now, o) :: l)).1 = (run (step s now o).1 l).1 := rfl
    rw [this, ih]
    cases o
    · simp only [step, lastReset, decide_true, List.filter_cons_of_pos, List.map_cons]
      cases (l.filter fun p => decide (p.2 = .reset)).map (·.1) <;> rfl
    · simp [step, lastReset]
    · simp [step, lastReset]

/-- **C152.** Whatever was called before, `elapsed` and `difference` tell the time since the last reset (or the construction), in whole units towards zero. -/
theorem C152_since_reset (created now : Int) (l : List (Int × Op)) (unit : Nat) :
    (history created (l ++ [(now, .elapsed unit)])).getLast? = some (some ((now - lastReset created l).tdiv unit)) ∧
    (history created (l ++ [(now, .difference unit)])).getLast? = some (some ((now - lastReset created l).tdiv unit)) := by
  unfold history
  rw [run_append, run_append, run_start]
  constructor <;> simp [run, step, durationCast, run_start]

/-- **C152.** When the clock does not go backwards the result is never negative, never more than the time that passed, and less by less than one unit. -/
theorem C152_accurate (created now : Int) (l : List (Int × Op)) (unit : Nat) (hu : 0 < unit) (hc : lastReset created l ≤ now) :
    ∃ v, (history created (l ++ [(now, .elapsed unit)])).getLast? = some (some v) ∧ 0 ≤ v ∧
      v * unit ≤ now - lastReset created l ∧ now - lastReset created l < (v + 1) * unit := by
  refine ⟨_, (C152_since_reset created now l unit).1, ?_⟩
  generalize hd : now - lastReset created l = d
  have h0 : 0 ≤ d := by omega
  have hu' : (0 : Int) < unit := by exact_mod_cast hu
  rw [Int.tdiv_eq_ediv_of_nonneg h0]
  refine ⟨Int.ediv_nonneg h0 hu'.le, Int.ediv_mul_le _ hu'.ne', Int.lt_ediv_add_one_mul_self d hu'⟩

/-- **C152.** Between resets the results do not decrease when the clock does not. -/
theorem C152_monotone (created t1 t2 : Int) (l l' : List (Int × Op)) (unit : Nat) (hu : 0 < unit) (hl : ∀ p ∈ l', p.2 ≠ .reset)
    (h1 : lastReset created l ≤ t1) (h2 : t1 ≤ t2) :
    ∃ v w, (history created (l ++ [(t1, .elapsed unit)])).getLast? = some (some v) ∧
      (history created (l ++ [(t1, .elapsed unit)] ++ l' ++ [(t2, .elapsed unit)])).getLast? = some (some w) ∧ v ≤ w := by
  refine ⟨_, _, (C152_since_reset created t1 l unit).1, (C152_since_reset created t2 (l ++ [(t1, .elapsed unit)] ++ l') unit).1, ?_⟩
  have : lastReset created (l ++ [(t1, .elapsed unit)] ++ l') = lastReset created l := by
    unfold lastReset
    have hf : l'.filter (fun p => decide (p.2 = .reset)) = [] := by
      rw [List.filter_eq_nil_iff]; intro p hp; simp [hl p hp]
    simp [List.filter_append, hf]
  rw [this, Int.tdiv_eq_ediv_of_nonneg (by omega), Int.tdiv_eq_ediv_of_nonneg (by omega)]
  exact Int.ediv_le_ediv (by exact_mod_cast hu) (by omega)

/-- `high_resolution_clock` need not be steady: when it is set back the result can be negative. -/
theorem C152_unsteady : history 5000 [(2000, .elapsed 1000)] = [some (-3)] := by decide

example : history 100 [(5350, .elapsed 1000), (6000, .reset), (6999, .elapsed 1000), (9000, .difference 1000), (9001, .elapsed 1)] =
    [some 5, none, some 0, some 3, some 3001] := by decide

end Verif.Timestamp
