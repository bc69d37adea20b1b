import Verif.Seqs.PropsSubarray
import Mathlib.Tactic.IntervalCases

/-!
classic/sequences/subarray.h `max_length_of_sum` over a floating type (`subarray_t<double>`): the keys of `first_occurrence` are `long long`
(subarray.h:31), so the sums are converted, which truncates them towards zero.

The values are integer multiples of `1/D` and are represented by their numerators; additions are exact. (Rounding, which a floating type adds, is not
modelled: already exact sums go wrong. Nor are sums beyond the range of `long long`, whose conversion is undefined.)
-/

namespace Verif.Seqs

/-- The conversion of `n/D` to `long long`. -/
def toKey (D : Nat) (n : Int) : Int := n.tdiv D

/-- subarray.h:37-52, one iteration. -/
def mlStepF (D : Nat) (req : Int) (ii : Nat) (x : Int) (s : MlState) : MlState :=
  let sum := s.sum + x                                         -- :39
  if sum = req then { s with sum := sum, maxLength := ii + 1 } -- :40-42, compared without conversion
  else
    match s.occ.lookup (toKey D (sum - req)) with              -- :44
    | some j => { s with sum := sum, maxLength := max s.maxLength (ii - j) }  -- :45-47
    | none =>
      if req = 0 ∨ s.occ.lookup (toKey D sum) = none then      -- :48-50
        { s with sum := sum, occ := (toKey D sum, ii) :: s.occ }
      else { s with sum := sum }

def mlLoopF (D : Nat) (req : Int) : List Int → Nat → MlState → MlState
  | [], _, s => s
  | x :: rest, ii, s => mlLoopF D req rest (ii + 1) (mlStepF D req ii x s)

/-- subarray.h:30-55 `max_length_of_sum`. -/
def maxLengthOfSumF (D : Nat) (l : List Int) (req : Int) : Nat := (mlLoopF D req l 0 ⟨0, 0, []⟩).maxLength

/-- **C153, full statement.** A positive result is the length of a subarray with the required sum, and it is 0 only if there is none. -/
def C153_statement (D : Nat) : Prop :=
  ∀ (l : List Int) (r : Int), (0 < maxLengthOfSumF D l r → HasSub l r (maxLengthOfSumF D l r)) ∧
    (maxLengthOfSumF D l r = 0 → ∀ n, 0 < n → ¬ HasSub l r n)

theorem toKey_mul (D : Nat) (hD : 0 < D) (n : Int) : toKey D (D * n) = n := by
  unfold toKey
  exact Int.mul_tdiv_cancel_left _ (by omega)

theorem mlStepF_mul (D : Nat) (hD : 0 < D) (req : Int) (ii : Nat) (x : Int) (s : MlState) :
    mlStepF D (D * req) ii (D * x) { s with sum := D * s.sum } = { mlStep req ii x s with sum := D * (mlStep req ii x s).sum } := by
  have hD' : (D : Int) ≠ 0 := by omega
  have e1 : (D : Int) * s.sum + D * x = D * (s.sum + x) := by rw [Int.mul_add]
  have e2 : (D : Int) * (s.sum + x) - D * req = D * (s.sum + x - req) := by rw [Int.mul_sub]
  have e3 : ((D : Int) * (s.sum + x) = D * req) ↔ s.sum + x = req := by
    constructor
    · exact fun h => Int.eq_of_mul_eq_mul_left hD' h
    · rintro rfl; rfl
  have e4 : ((D : Int) * req = 0) ↔ req = 0 := by
    rw [Int.mul_eq_zero]; exact ⟨fun h => h.resolve_left hD', .inr⟩
  unfold mlStepF mlStep
  simp only [e1, e2, e3, e4, toKey_mul D hD]
  by_cases h : s.sum + x = req
  · rw [if_pos h, if_pos h]
  · rw [if_neg h, if_neg h]
    cases s.occ.lookup (s.sum + x - req) with
    | some j => rfl
    | none =>
      simp only
      split <;> rfl

theorem mlLoopF_mul (D : Nat) (hD : 0 < D) (req : Int) (l : List Int) : ∀ (ii : Nat) (s : MlState),
    mlLoopF D (D * req) (l.map (D * ·)) ii { s with sum := D * s.sum } =
      { mlLoop req l ii s with sum := D * (mlLoop req l ii s).sum } := by
  induction l with
  | nil => intro ii s; rfl
  | cons x l ih =>
    intro ii s
    rw [List.map_cons, mlLoopF, mlStepF_mul D hD, ih]
    rfl

/-- Whole numbers are handled as by the integer version. -/
theorem C153_whole (D : Nat) (hD : 0 < D) (l : List Int) (r : Int) :
    maxLengthOfSumF D (l.map (D * ·)) (D * r) = maxLengthOfSum l r := by
  unfold maxLengthOfSumF maxLengthOfSum
  have := mlLoopF_mul D hD r l 0 ⟨0, 0, []⟩
  simp only [Int.mul_zero] at this
  rw [this]

theorem hasSub_mul (D : Nat) (hD : 0 < D) (l : List Int) (r : Int) (n : Nat) : HasSub (l.map (D * ·)) (D * r) n ↔ HasSub l r n := by
  have hD' : (D : Int) ≠ 0 := by omega
  have hs : ∀ t : List Int, (t.map ((D : Int) * ·)).sum = D * t.sum := by
    intro t
    induction t with
    | nil => simp
    | cons a t ih => simp [ih, Int.mul_add]
  constructor
  · rintro ⟨t, ht, hl, he⟩
    obtain ⟨a, b, hab⟩ := ht
    obtain ⟨u, c, hl1, hu, hc⟩ := List.map_eq_append_iff.1 hab.symm
    obtain ⟨a', t', hl2, ha, ht'⟩ := List.map_eq_append_iff.1 hu
    subst ht'
    refine ⟨t', ⟨a', c, by rw [← hl2, ← hl1]⟩, by simpa using hl, ?_⟩
    rw [hs] at he
    exact Int.eq_of_mul_eq_mul_left hD' he
  · rintro ⟨t, ⟨a, b, hab⟩, hl, he⟩
    refine ⟨t.map (D * ·), ⟨a.map (D * ·), b.map (D * ·), by rw [← hab]; simp⟩, by simpa using hl, ?_⟩
    rw [hs, he]

/-- **C153, partial.** It holds when the elements and the required sum are whole numbers. Missing: fractions. -/
theorem C153_whole_partial (D : Nat) (hD : 0 < D) (l : List Int) (r : Int) :
    (0 < maxLengthOfSumF D (l.map (D * ·)) (D * r) → HasSub (l.map (D * ·)) (D * r) (maxLengthOfSumF D (l.map (D * ·)) (D * r))) ∧
    (maxLengthOfSumF D (l.map (D * ·)) (D * r) = 0 → ∀ n, 0 < n → ¬ HasSub (l.map (D * ·)) (D * r) n) := by
  rw [C153_whole D hD]
  have h := C73_sound l r
  exact ⟨fun h0 => (hasSub_mul D hD l r _).2 (h.1 h0), fun h0 n hn hs => h.2.1 h0 n hn ((hasSub_mul D hD l r n).1 hs)⟩

/-- C153 fails: for 0.25, 1.0 and the required sum 1.5 the result is 1, though no subarray has this sum. -/
theorem C153_counterexample : maxLengthOfSumF 4 [1, 4] 6 = 1 ∧ (∀ n, ¬ HasSub [1, 4] 6 n) ∧ ¬ C153_statement 4 := by
  have h1 : maxLengthOfSumF 4 [1, 4] 6 = 1 := by decide +kernel
  have h2 : ∀ n, ¬ HasSub [1, 4] 6 n := by
    intro n hn
    obtain ⟨i, hi, he⟩ := (hasSub_iff _ _ _).mp hn
    simp at hi
    have : i ≤ 2 := by omega
    have : n ≤ 2 := by omega
    interval_cases i <;> interval_cases n <;> revert he <;> decide
  refine ⟨h1, h2, fun h => ?_⟩
  have := (h [1, 4] 6).1 (by rw [h1]; decide)
  exact h2 _ this

example : maxLengthOfSumF 4 [4, 8, -4, 8] 12 = 3 := by decide +kernel

end Verif.Seqs
