import Verif.Common

/-
Model of classic/sequences/missing_element.h, subarray.h and subset.h.

Simplifications, all functions:
* an iterator into `[first, last)` is a position `Nat` in a `List`; the position `length` is `last`.  Dereferencing
  it, or anything beyond, is undefined behaviour (`rd`); so is forming an iterator beyond `last`, which the model
  reports at the following dereference.
* `number_t`/`int_type_t` values that are added or multiplied are `Int`: signed overflow (UB in C++) is not modelled
  here but in Signed.lean, so the theorems are about inputs whose sums and products fit the type.  The XOR functions, whose result depends on
  the representation, work on `BitVec w` for every width `w`.
* `std::pow` is exact (true for results below `2^53`).
-/

namespace Verif.Seqs

/-! ### missing_element.h -/

/-- The loop of `find_missing_arithmetic_in_sorted` (missing_element.h:46-71).  `it` is the number of iterations left
(`MAX_ITERATIONS - iteration`). -/
def arithLoop (l : List Int) (factor lower : Int) : Nat → Nat → Res (Bool × Int)
  | 0, _ => .exc .invalid                                      -- :47-49
  | it + 1, count =>
    let step := count / 2                                      -- :50
    let expected := lower + step * factor                      -- :52
    if step = 0 then .ok (false, lower)                        -- :53
    else do
      let vmid ← rd l step
      if expected = vmid then arithLoop l factor lower it (count + step)      -- :56-59
      else
        let vpit ← rd l (step - 1)
        if vpit = expected - factor then .ok (true, expected)                 -- :61-64
        else arithLoop l factor lower it (count - step)                       -- :65-68

/-- `find_missing_arithmetic_in_sorted` (missing_element.h:24-72). -/
def findArith (l : List Int) (factor lower : Int) : Res (Bool × Int) := do
  let v ← rd l 0                                               -- :37
  if v ≠ lower then
    if v = lower + factor then .ok (true, lower) else .exc .invalid
  else arithLoop l factor lower l.length l.length

/-- The loop of the integer `find_missing_geometric_in_sorted` (missing_element.h:111-145). -/
def geomLoop (l : List Int) (factor lower : Int) : Nat → Nat → Res (Bool × Int)
  | 0, count => if count = 0 then .ok (false, lower) else .exc .invalid
  | it + 1, count =>
    if count = 0 then .ok (false, lower)                       -- :111
    else
      let step := count / 2                                    -- :115
      if step = 0 ∨ step = l.length then .ok (false, lower)    -- :117
      else do
        let vmid ← rd l step
        let vnit ← rd l (step + 1)
        if vnit ≠ vmid * factor then .ok (true, vmid * factor)                -- :121-125
        else
          let vpit ← rd l (step - 1)
          if vmid ≠ vpit * factor then .ok (true, vpit * factor)              -- :127-131
          else if vmid = lower * factor ^ step then
            geomLoop l factor lower it (count + step)                         -- :133-137
          else geomLoop l factor lower it (count - step)                      -- :138-141

/-- `find_missing_geometric_in_sorted` for integers (missing_element.h:87-146). -/
def findGeom (l : List Int) (factor lower : Int) : Res (Bool × Int) := do
  let v ← rd l 0
  if v ≠ lower then
    if v = lower * factor then .ok (true, lower) else .exc .invalid
  else geomLoop l factor lower l.length l.length

/-- The loop of the floating point `find_missing_geometric_in_sorted` (missing_element.h:187-221), over the rationals:
rounding is not modelled, the tolerance `err` is. -/
def geomFLoop (l : List Rat) (factor lower err : Rat) : Nat → Nat → Res (Bool × Rat)
  | 0, count => if count = 0 then .ok (false, lower) else .exc .invalid
  | it + 1, count =>
    if count = 0 then .ok (false, lower)                       -- :187
    else
      let step := count / 2                                    -- :191
      if step = 0 ∨ step = l.length then .ok (false, lower)    -- :193
      else do
        let vmid ← rd l step
        let vnit ← rd l (step + 1)
        if vnit > vmid * factor + err ∨ vnit < vmid * factor - err then .ok (true, vmid * factor)   -- :197-201
        else
          let vpit ← rd l (step - 1)
          if vmid > vpit * factor + err ∨ vmid < vpit * factor - err then .ok (true, vpit * factor) -- :203-207
          else if vmid ≤ lower * factor ^ step + err ∨ vmid ≥ lower * factor ^ step - err then      -- :209-210
            geomFLoop l factor lower err it (count + step)
          else geomFLoop l factor lower err it (count - step)

/-- `find_missing_geometric_in_sorted` for floating point numbers (missing_element.h:161-222). -/
def findGeomF (l : List Rat) (factor lower err : Rat) : Res (Bool × Rat) := do
  let v ← rd l 0                                               -- :178
  if v ≠ lower then
    if v = lower * factor then .ok (true, lower) else .exc .invalid
  else geomFLoop l factor lower err l.length l.length

/-- `elem = *it; while (++it != last) elem ^= *it;` (missing_element.h:238-243, 268-274, 292-296).  On an empty range
the first dereference is already undefined. -/
def xorRange {w : Nat} : List (BitVec w) → Res (BitVec w)
  | [] => .ub
  | x :: rest => .ok (rest.foldl (· ^^^ ·) x)

/-- `for (int_type_t ii = lower; ii <= max; ii++) elem ^= ii;` (missing_element.h:246-248), `n` iterations left. -/
def xorCount {w : Nat} : Nat → Int → BitVec w → BitVec w
  | 0, _, elem => elem
  | n + 1, ii, elem => xorCount n (ii + 1) (elem ^^^ BitVec.ofInt w ii)

/-- `find_missing_sequential_range` (missing_element.h:231-254) for an `int_type_t` of `w` bits whose greatest value is
`tmax`.  If `max = lower + dist` reaches `tmax` then either the addition or the last `ii++` overflows (or, for an
unsigned or narrow type, the loop never ends): no result, modelled as `ub`. -/
def findSequential {w : Nat} (tmax : Int) (l : List (BitVec w)) (lower : Int) : Res (Bool × BitVec w) :=
  if l.length = 0 then .ok (false, 0#w)
  else do
    let elem ← xorRange l
    let max := lower + (l.length : Int)
    if tmax ≤ max then .ub
    else .ok (true, xorCount (max - lower + 1).toNat lower elem)

/-- `find_not_common_element` (missing_element.h:263-282). -/
def findNotCommon {w : Nat} (a b : List (BitVec w)) : Res (BitVec w) := do
  let elem ← xorRange a
  .ok (b.foldl (· ^^^ ·) elem)

/-- `find_non_repeated_element` (missing_element.h:291-298). -/
def findNonRepeated {w : Nat} (l : List (BitVec w)) : Res (BitVec w) := xorRange l

/-! ### subarray.h -/

/-- State of `max_length_of_sum` (subarray.h:33-35); `first_occurrence` is an association list. -/
structure MlState where
  maxLength : Nat
  sum : Int
  occ : List (Int × Nat)

/-- One iteration of `max_length_of_sum` (subarray.h:37-52). -/
def mlStep (req : Int) (ii : Nat) (x : Int) (s : MlState) : MlState :=
  let sum := s.sum + x                                         -- :39
  if sum = req then { s with sum := sum, maxLength := ii + 1 } -- :40-42
  else
    match s.occ.lookup (sum - req) with                        -- :44
    | some j => { s with sum := sum, maxLength := max s.maxLength (ii - j) }  -- :45-47
    | none =>
      if req = 0 ∨ s.occ.lookup sum = none then                -- :48-50
        { s with sum := sum, occ := (sum, ii) :: s.occ }
      else { s with sum := sum }

def mlLoop (req : Int) : List Int → Nat → MlState → MlState
  | [], _, s => s
  | x :: rest, ii, s => mlLoop req rest (ii + 1) (mlStep req ii x s)

/-- `subarray_t::max_length_of_sum` (subarray.h:30-55). -/
def maxLengthOfSum (l : List Int) (req : Int) : Nat := (mlLoop req l 0 ⟨0, 0, []⟩).maxLength

/-- The loop of `max_sum_of` (subarray.h:68-72). -/
def msLoop : List Int → Int → Int → Int
  | [], maxSum, _ => maxSum
  | x :: rest, maxSum, cur =>
    let cur := max x (cur + x)                                 -- :69
    msLoop rest (max cur maxSum) cur                           -- :70

/-- `subarray_t::max_sum_of` (subarray.h:64-73). -/
def maxSumOf : List Int → Int
  | [] => 0                                                    -- :65
  | x :: rest => msLoop (x :: rest) x x                        -- :66-67: both start at `*first`

/-! ### subset.h -/

/-- `sum_cache_t` (subset.h:20): one map from sums to counts per position. -/
abbrev Memo := List (List (Int × Nat))

/-- `sum_of_subsets` with a given memo (subset.h:42-66).  `rest` is `[it, last)` and `ii = distance(first, it)`.
`ord` chooses the evaluation order of the two operands of `+`, which C++ leaves unspecified; the sum is taken modulo
`2^64`.  `cache[ii]` beyond the end of the memo is undefined. -/
def subsets (ord : Bool) : List Int → Nat → Int → Memo → Res (Nat × Memo)
  | [], _, sum, c => .ok (if sum = 0 then 1 else 0, c)         -- :49-51
  | x :: rest, ii, sum, c => do
    let row ← rd c ii                                          -- :54
    match row.lookup sum with
    | some r => .ok (r, c)                                     -- :55-57
    | none =>
      let (a, c) ← if ord then subsets ord rest (ii + 1) sum c else subsets ord rest (ii + 1) (sum - x) c
      let (b, c) ← if ord then subsets ord rest (ii + 1) (sum - x) c else subsets ord rest (ii + 1) sum c
      let r := (a + b) % W                                     -- :59-62
      let row ← rd c ii
      .ok (r, c.set ii ((sum, r) :: row))

/-- `sum_of_subsets(first, last, sum)` (subset.h:30-33). -/
def sumOfSubsets (ord : Bool) (l : List Int) (sum : Int) : Res Nat := do
  let (r, _) ← subsets ord l 0 sum (List.replicate l.length [])
  .ok r

/-- A call of the second overload (subset.h:42-47) at position `start` of `l`. -/
def subsetsAt (ord : Bool) (l : List Int) (start : Nat) (sum : Int) (c : Memo) : Res (Nat × Memo) :=
  subsets ord (l.drop start) start sum c

/-- A series of calls sharing one memo; each call is a start position and a sum. -/
def subsetsMany (ord : Bool) (l : List Int) : List (Nat × Int) → Memo → Res (List Nat × Memo)
  | [], c => .ok ([], c)
  | (start, sum) :: calls, c => do
    let (r, c) ← subsetsAt ord l start sum c
    let (rs, c) ← subsetsMany ord l calls c
    .ok (r :: rs, c)

end Verif.Seqs
