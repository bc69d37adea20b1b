import Verif.Seqs.Model
import Mathlib.Tactic.Linarith
import Mathlib.Tactic.Ring

/-!
C172: the time of the functions of missing_element.h (lines 224-298) and subarray.h (lines 20-73), which their comments (lines 227,
259 and 287; lines 25 and 59) say to be O(n).

The functions of Model.lean, together with the number of steps of iterators and counters: an increment is one step; the distance
of two random access iterators is one subtraction, but that of two iterators which can only be incremented (`ra = false`; the
template parameter is called `ForwardIt`, and nothing in these functions asks for more) takes as many increments as it is long.
For `max_length_of_sum` also the number of calls of the hash map (`find`, `count`, `operator[]`), each of which is O(1) on average.
-/

namespace Verif.Seqs

/-- The steps of `std::distance` for iterators `k` apart. -/
def distC (ra : Bool) (k : Nat) : Nat := if ra then 1 else k

/-- missing_element.h:238-243, 268-274 and 292-296: `++it` once for each element. -/
def xorRangeC {w : Nat} : List (BitVec w) → Nat × Res (BitVec w)
  | [] => (0, .ub)
  | x :: rest => rest.foldl (fun r y => (r.1 + 1, r.2 >>= fun e => .ok (e ^^^ y))) (1, .ok x)

/-- missing_element.h:246-248: `ii++` once for each round. -/
def xorCountC {w : Nat} : Nat → Int → BitVec w → Nat × BitVec w
  | 0, _, elem => (0, elem)
  | n + 1, ii, elem =>
    let r := xorCountC n (ii + 1) (elem ^^^ BitVec.ofInt w ii)
    (r.1 + 1, r.2)

/-- missing_element.h:231-254. -/
def findSequentialC {w : Nat} (ra : Bool) (tmax : Int) (l : List (BitVec w)) (lower : Int) : Nat × Res (Bool × BitVec w) :=
  let d := distC ra l.length
  if l.length = 0 then (d, .ok (false, 0#w))
  else
    let r := xorRangeC l
    match r.2 with
    | .ok elem =>
      let max := lower + (l.length : Int)
      if tmax ≤ max then (d + r.1, .ub)
      else
        let s := xorCountC (max - lower + 1).toNat lower elem
        (d + r.1 + s.1, .ok (true, s.2))
    | .exc e => (d + r.1, .exc e)
    | .ub => (d + r.1, .ub)

/-- missing_element.h:263-282: `it++` once for each element of the second range. -/
def findNotCommonC {w : Nat} (a b : List (BitVec w)) : Nat × Res (BitVec w) :=
  b.foldl (fun r y => (r.1 + 1, r.2 >>= fun e => .ok (e ^^^ y))) (xorRangeC a)

/-- missing_element.h:291-298. -/
def findNonRepeatedC {w : Nat} (l : List (BitVec w)) : Nat × Res (BitVec w) := xorRangeC l

/-- subarray.h:38-52: the calls of the hash map and the new state. -/
def mlStepC (req : Int) (ii : Nat) (x : Int) (s : MlState) : Nat × MlState :=
  let sum := s.sum + x
  if sum = req then (0, { s with sum := sum, maxLength := ii + 1 })
  else
    match s.occ.lookup (sum - req) with                        -- :44 `find`
    | some j => (1, { s with sum := sum, maxLength := max s.maxLength (ii - j) })
    | none =>
      if req = 0 then (2, { s with sum := sum, occ := (sum, ii) :: s.occ })              -- :49 `operator[]`
      else if s.occ.lookup sum = none then (3, { s with sum := sum, occ := (sum, ii) :: s.occ })   -- :48 `count`, :49
      else (2, { s with sum := sum })                                                   -- :48 `count`

/-- subarray.h:37-52: the steps, the calls of the hash map and the state after the loop. -/
def mlLoopC (ra : Bool) (req : Int) : List Int → Nat → MlState → Nat × Nat × MlState
  | [], _, s => (0, 0, s)
  | x :: rest, ii, s =>
    let p := mlStepC req ii x s
    let r := mlLoopC ra req rest (ii + 1) p.2
    (distC ra ii + 1 + r.1, p.1 + r.2.1, r.2.2)               -- :38 `std::distance(first, it)`, :37 `it++`

/-- subarray.h:30-55. -/
def maxLengthOfSumC (ra : Bool) (l : List Int) (req : Int) : Nat × Nat × Nat :=
  let r := mlLoopC ra req l 0 ⟨0, 0, []⟩
  (distC ra l.length + r.1, r.2.1, r.2.2.maxLength)

/-- subarray.h:68-72: `it++` once for each element. -/
def msLoopC : List Int → Int → Int → Nat × Int
  | [], maxSum, _ => (0, maxSum)
  | x :: rest, maxSum, cur =>
    let r := msLoopC rest (max (max x (cur + x)) maxSum) (max x (cur + x))
    (r.1 + 1, r.2)

/-- subarray.h:64-73. -/
def maxSumOfC : List Int → Nat × Int
  | [] => (0, 0)
  | x :: rest => msLoopC (x :: rest) x x

/-! ### The counting functions compute what the functions of Model.lean compute -/

theorem foldC_eq {w : Nat} (l : List (BitVec w)) : ∀ (n : Nat) (r : Res (BitVec w)),
    l.foldl (fun r y => (r.1 + 1, r.2 >>= fun e => .ok (e ^^^ y))) (n, r) =
      (n + l.length, r >>= fun e => .ok (l.foldl (· ^^^ ·) e)) := by
  induction l with
  | nil =>
    intro n r
    cases r <;> rfl
  | cons y l ih =>
    intro n r
    rw [List.foldl_cons, ih]
    refine Prod.ext ?_ ?_
    · simp only [List.length_cons]; omega
    · cases r <;> rfl

theorem xorRangeC_eq {w : Nat} (l : List (BitVec w)) : xorRangeC l = (l.length, xorRange l) := by
  cases l with
  | nil => rfl
  | cons x rest =>
    simp only [xorRangeC, xorRange]
    rw [foldC_eq]
    refine Prod.ext ?_ rfl
    simp only [List.length_cons]; omega

theorem xorCountC_eq {w : Nat} (n : Nat) : ∀ (ii : Int) (e : BitVec w), xorCountC n ii e = (n, xorCount n ii e) := by
  induction n with
  | zero => intro ii e; rfl
  | succ n ih => intro ii e; simp only [xorCountC, xorCount, ih]

theorem mlStepC_same (req : Int) (ii : Nat) (x : Int) (s : MlState) : (mlStepC req ii x s).2 = mlStep req ii x s := by
  unfold mlStepC mlStep
  simp only
  by_cases h : s.sum + x = req
  · rw [if_pos h, if_pos h]
  · rw [if_neg h, if_neg h]
    cases s.occ.lookup (s.sum + x - req) with
    | some j => rfl
    | none =>
      simp only
      by_cases h0 : req = 0
      · rw [if_pos h0, if_pos (Or.inl h0)]
      · rw [if_neg h0]
        by_cases h1 : s.occ.lookup (s.sum + x) = none
        · rw [if_pos h1, if_pos (Or.inr h1)]
        · rw [if_neg h1, if_neg (by rintro (h | h) <;> contradiction)]

theorem mlLoopC_same (ra : Bool) (req : Int) (l : List Int) : ∀ ii s, (mlLoopC ra req l ii s).2.2 = mlLoop req l ii s := by
  induction l with
  | nil => intro ii s; rfl
  | cons x l ih => intro ii s; simp only [mlLoopC, mlLoop, ih, mlStepC_same]

theorem msLoopC_eq (l : List Int) : ∀ m c, msLoopC l m c = (l.length, msLoop l m c) := by
  induction l with
  | nil => intro m c; rfl
  | cons x l ih => intro m c; simp only [msLoopC, msLoop, ih, List.length_cons]

/-- The counting functions compute what the functions of Model.lean compute. -/
theorem C172_same :
    (∀ (w : Nat) ra tmax (l : List (BitVec w)) lower, (findSequentialC ra tmax l lower).2 = findSequential tmax l lower) ∧
    (∀ (w : Nat) (a b : List (BitVec w)), (findNotCommonC a b).2 = findNotCommon a b) ∧
    (∀ (w : Nat) (l : List (BitVec w)), (findNonRepeatedC l).2 = findNonRepeated l) ∧
    (∀ ra l req, (maxLengthOfSumC ra l req).2.2 = maxLengthOfSum l req) ∧
    (∀ l, (maxSumOfC l).2 = maxSumOf l) := by
  refine ⟨fun w ra tmax l lower => ?_, fun w a b => ?_, fun w l => ?_, fun ra l req => ?_, fun l => ?_⟩
  · unfold findSequentialC findSequential
    simp only [xorRangeC_eq]
    by_cases h : l.length = 0
    · rw [if_pos h, if_pos h]
    · rw [if_neg h, if_neg h]
      cases xorRange l with
      | exc e => rfl
      | ub => rfl
      | ok e =>
        simp only [Res.bind_ok]
        by_cases h2 : tmax ≤ lower + (l.length : Int)
        · rw [if_pos h2, if_pos h2]
        · rw [if_neg h2, if_neg h2, xorCountC_eq]
  · unfold findNotCommonC findNotCommon
    rw [xorRangeC_eq, foldC_eq]
  · unfold findNonRepeatedC findNonRepeated
    rw [xorRangeC_eq]
  · simp only [maxLengthOfSumC, maxLengthOfSum, mlLoopC_same]
  · cases l with
    | nil => rfl
    | cons x l => simp only [maxSumOfC, maxSumOf, msLoopC_eq]

/-! ### C172 -/

/-- At most `K` steps for each element (and `K` more). -/
def LinearTime (K : Nat) (steps n : Nat) : Prop := steps ≤ K * (n + 1)

/-- C172, full statement: all five functions take linear time, with all iterators that they accept. -/
def C172_statement : Prop := ∃ K,
  (∀ (w : Nat) ra tmax (l : List (BitVec w)) lower, LinearTime K (findSequentialC ra tmax l lower).1 l.length) ∧
  (∀ (w : Nat) (a b : List (BitVec w)), LinearTime K (findNotCommonC a b).1 (a.length + b.length)) ∧
  (∀ (w : Nat) (l : List (BitVec w)), LinearTime K (findNonRepeatedC l).1 l.length) ∧
  (∀ ra l req, LinearTime K (maxLengthOfSumC ra l req).1 l.length ∧ LinearTime K (maxLengthOfSumC ra l req).2.1 l.length) ∧
  (∀ l, LinearTime K (maxSumOfC l).1 l.length)

/-- The sum of the distances `a, a + 1, …, a + n - 1`. -/
theorem mlLoopC_forward (req : Int) (l : List Int) : ∀ ii s,
    2 * (mlLoopC false req l ii s).1 = l.length * (2 * ii + l.length + 1) := by
  induction l with
  | nil => intro ii s; simp only [mlLoopC, List.length_nil, Nat.zero_mul, Nat.mul_zero]
  | cons x l ih =>
    intro ii s
    have h := ih (ii + 1) (mlStepC req ii x s).2
    simp only [mlLoopC, List.length_cons]
    have e : distC false ii = ii := rfl
    rw [e, Nat.mul_add, h]
    ring

theorem mlLoopC_random (req : Int) (l : List Int) : ∀ ii s, (mlLoopC true req l ii s).1 = 2 * l.length := by
  induction l with
  | nil => intro ii s; rfl
  | cons x l ih =>
    intro ii s
    simp only [mlLoopC, List.length_cons, ih]
    have e : distC true ii = 1 := rfl
    rw [e]
    omega

theorem mlStepC_calls (req : Int) (ii : Nat) (x : Int) (s : MlState) : (mlStepC req ii x s).1 ≤ 3 := by
  unfold mlStepC
  simp only
  by_cases h : s.sum + x = req
  · rw [if_pos h]; exact Nat.zero_le _
  · rw [if_neg h]
    cases s.occ.lookup (s.sum + x - req) with
    | some j => exact Nat.le_of_ble_eq_true rfl
    | none =>
      simp only
      by_cases h0 : req = 0
      · rw [if_pos h0]; exact Nat.le_of_ble_eq_true rfl
      · rw [if_neg h0]
        by_cases h1 : s.occ.lookup (s.sum + x) = none
        · rw [if_pos h1]
        · rw [if_neg h1]; exact Nat.le_of_ble_eq_true rfl

theorem mlLoopC_calls (ra : Bool) (req : Int) (l : List Int) : ∀ ii s, (mlLoopC ra req l ii s).2.1 ≤ 3 * l.length := by
  induction l with
  | nil => intro ii s; exact Nat.le_refl _
  | cons x l ih =>
    intro ii s
    have h1 := mlStepC_calls req ii x s
    have h2 := ih (ii + 1) (mlStepC req ii x s).2
    simp only [mlLoopC, List.length_cons]
    omega

/-- C172, what holds: the exact numbers of steps of the searches by XOR and of `max_sum_of` with any iterators, and of
`max_length_of_sum` with random access iterators, and at most three calls of the hash map for each element. -/
theorem C172_linear_partial :
    (∀ (w : Nat) ra tmax (l : List (BitVec w)) lower, l ≠ [] → lower + (l.length : Int) < tmax →
      (findSequentialC ra tmax l lower).1 = (if ra then 1 else l.length) + (2 * l.length + 1)) ∧
    (∀ (w : Nat) ra tmax (l : List (BitVec w)) lower, (findSequentialC ra tmax l lower).1 ≤ 3 * (l.length + 1)) ∧
    (∀ (w : Nat) (a b : List (BitVec w)), (findNotCommonC a b).1 = a.length + b.length) ∧
    (∀ (w : Nat) (l : List (BitVec w)), (findNonRepeatedC l).1 = l.length) ∧
    (∀ l req, (maxLengthOfSumC true l req).1 = 2 * l.length + 1) ∧
    (∀ ra l req, (maxLengthOfSumC ra l req).2.1 ≤ 3 * l.length) ∧
    (∀ l, (maxSumOfC l).1 = l.length) := by
  have hseq : ∀ (w : Nat) ra tmax (l : List (BitVec w)) lower, l ≠ [] → lower + (l.length : Int) < tmax →
      (findSequentialC ra tmax l lower).1 = (if ra then 1 else l.length) + (2 * l.length + 1) := by
    intro w ra tmax l lower h0 h1
    cases l with
    | nil => exact absurd rfl h0
    | cons x rest =>
      unfold findSequentialC
      simp only [xorRangeC_eq]
      rw [if_neg (by simp only [List.length_cons]; omega)]
      have e : xorRange (x :: rest) = .ok (rest.foldl (· ^^^ ·) x) := rfl
      rw [e]
      simp only
      rw [if_neg (by omega), xorCountC_eq]
      have e2 : (lower + ((x :: rest).length : Int) - lower + 1).toNat = (x :: rest).length + 1 := by omega
      rw [e2]
      unfold distC
      simp only
      omega
  refine ⟨hseq, fun w ra tmax l lower => ?_, fun w a b => ?_, fun w l => ?_, fun l req => ?_, fun ra l req => ?_, fun l => ?_⟩
  · cases l with
    | nil =>
      have e : (findSequentialC ra tmax ([] : List (BitVec w)) lower).1 = distC ra 0 := rfl
      rw [e]; unfold distC; split <;> simp
    | cons x rest =>
      by_cases h1 : lower + ((x :: rest).length : Int) < tmax
      · rw [hseq w ra tmax _ lower (by simp) h1]
        simp only [List.length_cons]
        split <;> omega
      · unfold findSequentialC
        simp only [xorRangeC_eq]
        rw [if_neg (by simp only [List.length_cons]; omega)]
        have e : xorRange (x :: rest) = .ok (rest.foldl (· ^^^ ·) x) := rfl
        rw [e]
        simp only
        rw [if_pos (by omega)]
        unfold distC
        simp only [List.length_cons]
        split <;> omega
  · unfold findNotCommonC
    rw [xorRangeC_eq, foldC_eq]
  · unfold findNonRepeatedC
    rw [xorRangeC_eq]
  · unfold maxLengthOfSumC
    simp only [mlLoopC_random]
    have e : distC true l.length = 1 := rfl
    rw [e]; omega
  · exact mlLoopC_calls ra req l 0 _
  · cases l with
    | nil => rfl
    | cons x l => simp only [maxSumOfC, msLoopC_eq]

/-- With iterators that can only be incremented, `max_length_of_sum` takes exactly `n + n (n + 1) / 2` steps for `n` elements,
whatever they are: for each element it measures the distance from the first one anew. -/
theorem C172_counterexample (l : List Int) (req : Int) :
    2 * (maxLengthOfSumC false l req).1 = l.length * (l.length + 3) := by
  have h := mlLoopC_forward req l 0 ⟨0, 0, []⟩
  unfold maxLengthOfSumC
  have e : distC false l.length = l.length := rfl
  simp only
  rw [e, Nat.mul_add, h]
  ring

/-- C172 fails. -/
theorem C172_not : ¬ C172_statement := by
  rintro ⟨K, -, -, -, h, -⟩
  have h1 := (h false (List.replicate (2 * K + 1) 0) 0).1
  have h2 := C172_counterexample (List.replicate (2 * K + 1) 0) 0
  unfold LinearTime at h1
  rw [List.length_replicate] at h1 h2
  nlinarith

-- 10 elements: 21 steps with random access iterators, 65 with others; `find` and `operator[]` for each element
example : maxLengthOfSumC true [1, 2, 3, 4, 5, 6, 7, 8, 9, 10] 0 = (21, 20, 0) := by decide +kernel
example : maxLengthOfSumC false [1, 2, 3, 4, 5, 6, 7, 8, 9, 10] 0 = (65, 20, 0) := by decide +kernel
-- the greatest number of calls: `find`, `count` and `operator[]` for each element
example : maxLengthOfSumC true [1, 2, 3] 50 = (7, 9, 0) := by decide +kernel
example : maxLengthOfSumC true [1, -1, 5, -2, 3] 3 = (11, 12, 4) := by decide +kernel
-- (the first element counts twice, C75)
example : maxSumOfC [2, -3, 4, -1, 2] = (5, 6) := by decide +kernel
example : findSequentialC false 100 [3#8, 1#8, 4#8] 1 = (10, .ok (true, 2#8)) := by decide +kernel
example : findNotCommonC [3#8, 1#8, 4#8] [1#8, 4#8] = (5, .ok 3#8) := by decide +kernel
example : findNonRepeatedC [3#8, 1#8, 3#8] = (3, .ok 1#8) := by decide +kernel

end Verif.Seqs
