import Verif.Signed
import Mathlib.Data.Rat.Floor
import Mathlib.Tactic.Linarith
import Mathlib.Tactic.NormNum

/-!
The intervals of timers and the time-outs of semaphores, and C166: a wait lasts as long as was asked for.

timer.h:31-34 (constructor), 73-76 (`set_interval`), 127-134 (`run`), semaphore.h:34-36, 53.  A number given as interval is converted
to `size_t` (64 bits), to the signed 64-bit count of `std::chrono::milliseconds`, and by `wait_for` to a time of the steady clock in
signed nanoseconds, as in libstdc++: `steady_clock::now() + ceil<nanoseconds>(duration)`.

`Verif/Conc/TimerModel.lean` leaves these conversions out: its interval is the number given, and its clock is unbounded.
-/

namespace Verif.Interval

/-- `static_cast<size_t>` of a value of an integer type (timer.h:33; implicitly in `timer_t`, `set_interval` and semaphore.h:34). -/
def toSize (v : Int) : Nat := (v % 2 ^ 64).toNat

/-- `static_cast<size_t>` of a floating point value (timer.h:33): truncated; undefined if the result does not fit. -/
def doubleToSize (q : ℚ) : Res Nat :=
  if -1 < q ∧ q < 2 ^ 64 then .ok (if q < 0 then 0 else q.floor.toNat) else .ub

/-- `std::chrono::milliseconds{ n }` (timer.h:33, 75, semaphore.h:35): the count is `int64_t`. -/
def millis (n : Nat) : Int := if n < 2 ^ 63 then n else (n : Int) - 2 ^ 64

/-- The end of `_cv.wait_for(guard, ms)` (timer.h:134, semaphore.h:53) called at `now`, in nanoseconds of the steady clock. -/
def deadline (now ms : Int) : Res Int := do
  let ns ← chk (-2 ^ 63) (2 ^ 63 - 1) (ms * 1000000)
  chk (-2 ^ 63) (2 ^ 63 - 1) (now + ns)

/-- The moment from which on a wait for `n` milliseconds, begun at `now`, times out: the deadline, or at once if it has passed. -/
def timeout (now : Int) (n : Nat) : Res Int := do
  let d ← deadline now (millis n)
  .ok (max now d)

/-! ### C166 -/

/-- The full statement: for every interval that the parameter type can hold, a wait begun at any time of the clock ends exactly
when asked for. -/
def C166_statement : Prop :=
  ∀ (now : Int) (n : Nat), Fits 0 (2 ^ 63 - 1) now → n < 2 ^ 64 → timeout now n = .ok (now + n * 1000000)

theorem millis_small {n : Nat} (h : n < 2 ^ 63) : millis n = n := if_pos h
theorem millis_large {n : Nat} (h : 2 ^ 63 ≤ n) : millis n = (n : Int) - 2 ^ 64 := if_neg (by omega)

/-- A wait ends exactly when asked for if and only if that moment is one that the clock can show. What is missing for the full
statement is false (`C166_not`). -/
theorem C166_exact_partial (now : Int) (n : Nat) (hn : Fits 0 (2 ^ 63 - 1) now) (h : n < 2 ^ 64) :
    timeout now n = .ok (now + n * 1000000) ↔ now + n * 1000000 ≤ 2 ^ 63 - 1 := by
  obtain ⟨h0, h1⟩ := hn
  constructor
  · intro he
    unfold timeout at he
    rw [Res.bind_eq_ok] at he
    obtain ⟨d, hd, he⟩ := he
    simp only [Res.ok.injEq] at he
    unfold deadline at hd
    rw [Res.bind_eq_ok] at hd
    obtain ⟨ns, -, hd⟩ := hd
    obtain ⟨rfl, h3, h4⟩ := chk_eq hd
    omega
  · intro hle
    have hm := millis_small (n := n) (by omega)
    simp only [timeout, deadline, hm]
    rw [chk_ok ⟨by omega, by omega⟩, Res.bind_ok, chk_ok ⟨by omega, by omega⟩, Res.bind_ok]
    congr 1
    omega

/-- Otherwise a wait is undefined, or it ends at once: this happens to the greatest 9223372036854 intervals. -/
theorem C166_otherwise (now : Int) (n : Nat) (hn : Fits 0 (2 ^ 63 - 1) now) (h : n < 2 ^ 64) (hlt : 2 ^ 63 - 1 < now + n * 1000000) :
    timeout now n = if 2 ^ 64 - 9223372036854 ≤ n then .ok now else .ub := by
  obtain ⟨h0, h1⟩ := hn
  by_cases hb : 2 ^ 64 - 9223372036854 ≤ n
  · rw [if_pos hb]
    simp only [timeout, deadline, millis_large (n := n) (by omega)]
    rw [chk_ok ⟨by omega, by omega⟩, Res.bind_ok, chk_ok ⟨by omega, by omega⟩, Res.bind_ok]
    congr 1
    omega
  · rw [if_neg hb]
    by_cases hs : n < 2 ^ 63
    · simp only [timeout, deadline, millis_small hs]
      by_cases hf : (n : Int) * 1000000 ≤ 2 ^ 63 - 1
      · rw [chk_ok ⟨by omega, by omega⟩, Res.bind_ok, chk_ub (by rintro ⟨-, h4⟩; omega), Res.bind_ub]
      · rw [chk_ub (by rintro ⟨-, h4⟩; omega), Res.bind_ub, Res.bind_ub]
    · simp only [timeout, deadline, millis_large (n := n) (by omega)]
      rw [chk_ub (by rintro ⟨h3, -⟩; omega), Res.bind_ub, Res.bind_ub]

/-- For a century of uptime and intervals up to a century everything is exact. -/
theorem C166_century (now : Int) (n : Nat) (h0 : 0 ≤ now) (h1 : now ≤ 3155760000 * 1000000000) (h2 : n ≤ 3155760000 * 1000) :
    timeout now n = .ok (now + n * 1000000) :=
  (C166_exact_partial now n ⟨h0, by omega⟩ (by omega)).2 (by omega)

/-- Numbers of an integer type that are not negative reach the timer as given. -/
theorem C166_integer (v : Int) (h0 : 0 ≤ v) (h1 : v < 2 ^ 64) : toSize v = v := by
  unfold toSize
  omega

/-- With a negative interval (`timer_t t{-1, f}` meant to last for ever) every wait ends at once. -/
theorem C166_negative (now v : Int) (hn : Fits 0 (2 ^ 63 - 1) now) (h0 : v < 0) (h1 : -9223372036854 ≤ v) : timeout now (toSize v) = .ok now := by
  have hv : (toSize v : Int) = v + 2 ^ 64 := by unfold toSize; omega
  rw [C166_otherwise now _ hn (by omega) (by obtain ⟨h2, -⟩ := hn; omega), if_pos (by omega)]

/-- Floating point intervals are truncated to milliseconds. -/
theorem C166_floating (q : ℚ) (h0 : 0 ≤ q) (h1 : q < 2 ^ 64) : ∃ n, doubleToSize q = .ok n ∧ (n : ℚ) ≤ q ∧ q < n + 1 := by
  refine ⟨q.floor.toNat, ?_, ?_, ?_⟩
  · unfold doubleToSize
    rw [if_pos ⟨by linarith, h1⟩, if_neg (by linarith)]
  all_goals
    have hf : 0 ≤ ⌊q⌋ := Int.floor_nonneg.2 h0
    have hq : ((q.floor.toNat : Nat) : ℚ) = (⌊q⌋ : ℚ) := by
      have h2 : ((q.floor.toNat : Nat) : Int) = ⌊q⌋ := Int.toNat_of_nonneg hf
      exact_mod_cast congrArg (Int.cast (R := ℚ)) h2
    rw [hq]
  · exact Int.floor_le q
  · exact Int.lt_floor_add_one q

/-- A time-out of half a millisecond is none; a negative one is undefined. -/
theorem C166_floating_bounds (q : ℚ) : (0 ≤ q ∧ q < 1 → doubleToSize q = .ok 0) ∧ (q ≤ -1 ∨ 2 ^ 64 ≤ q → doubleToSize q = .ub) := by
  constructor
  · rintro ⟨h0, h1⟩
    obtain ⟨n, hn, h2, h3⟩ := C166_floating q h0 (by linarith)
    rw [hn]
    have : (n : ℚ) < 1 := by linarith
    have h4 : n < 1 := by exact_mod_cast this
    congr 1
    omega
  · rintro h
    unfold doubleToSize
    rw [if_neg]
    rintro ⟨h0, h1⟩
    rcases h with h | h <;> linarith

/-- The greatest interval does not wait at all. -/
theorem C166_counterexample_greatest (now : Int) (hn : Fits 0 (2 ^ 63 - 1) now) : timeout now (2 ^ 64 - 1) = .ok now := by
  rw [C166_otherwise now _ hn (by norm_num) (by obtain ⟨h2, -⟩ := hn; omega), if_pos (by norm_num)]

/-- `std::chrono::milliseconds::max()` overflows. -/
theorem C166_counterexample_overflow (now : Int) (hn : Fits 0 (2 ^ 63 - 1) now) : timeout now (2 ^ 63 - 1) = .ub := by
  rw [C166_otherwise now _ hn (by norm_num) (by obtain ⟨h2, -⟩ := hn; omega), if_neg (by norm_num)]

/-- The full statement is false. -/
theorem C166_not : ¬ C166_statement := by
  intro h
  have h1 := h 0 (2 ^ 63 - 1) ⟨by norm_num, by norm_num⟩ (by norm_num)
  rw [C166_counterexample_overflow 0 ⟨by norm_num, by norm_num⟩] at h1
  cases h1

example : timeout 5000000 100 = .ok 105000000 := by decide +kernel
example : timeout 5000000 (toSize (-1)) = .ok 5000000 := by decide +kernel
example : timeout 5000000 9223372036840 = .ok 9223372036845000000 := by decide +kernel
example : timeout 5000000 9223372036850 = .ub := by decide +kernel

end Verif.Interval
