import Verif.Seqs.MaxLengthUnsigned
import Verif.Seqs.PropsSubarray

/-
C218: max_length_of_sum (classic/sequences/subarray.h) for unsigned integers narrower than `int`: sums are taken modulo
`2^w`, but the difference that is looked up is an `int`.
-/

namespace Verif.Seqs

/-- State of `max_length_of_sum` (subarray.h:33-35) for an unsigned type narrower than `int`; the keys of
`first_occurrence` are of type `long long`. -/
structure MlStateN (w : Nat) where
  maxLength : Nat
  sum : BitVec w
  occ : List (Int × Nat)

/-- One iteration of `max_length_of_sum` (subarray.h:37-52): `sum - required_sum` is an `int` and may be negative. -/
def mlStepN {w : Nat} (req : BitVec w) (ii : Nat) (x : BitVec w) (s : MlStateN w) : MlStateN w :=
  let sum := s.sum + x                                         -- :39
  if sum = req then { s with sum := sum, maxLength := ii + 1 } -- :40-42
  else
    match s.occ.lookup ((sum.toNat : Int) - req.toNat) with    -- :44
    | some j => { s with sum := sum, maxLength := max s.maxLength (ii - j) }  -- :45-47
    | none =>
      if req = 0 ∨ s.occ.lookup (sum.toNat : Int) = none then  -- :48-50
        { s with sum := sum, occ := ((sum.toNat : Int), ii) :: s.occ }
      else { s with sum := sum }

def mlLoopN {w : Nat} (req : BitVec w) : List (BitVec w) → Nat → MlStateN w → MlStateN w
  | [], _, s => s
  | x :: rest, ii, s => mlLoopN req rest (ii + 1) (mlStepN req ii x s)

/-- `subarray_t::max_length_of_sum` (subarray.h:30-55) for an unsigned type narrower than `int`. -/
def maxLengthOfSumN {w : Nat} (l : List (BitVec w)) (req : BitVec w) : Nat := (mlLoopN req l 0 ⟨0, 0, []⟩).maxLength

/-- The same state with the sum as an integer. -/
def MlStateN.toInt {w : Nat} (s : MlStateN w) : MlState := ⟨s.maxLength, (s.sum.toNat : Int), s.occ⟩

/-- An iteration whose sum does not wrap around is that of the integers. -/
theorem mlStepN_toInt {w : Nat} (req : BitVec w) (ii : Nat) (x : BitVec w) (s : MlStateN w)
    (h : s.sum.toNat + x.toNat < 2 ^ w) :
    (mlStepN req ii x s).toInt = mlStep (req.toNat : Int) ii (x.toNat : Int) s.toInt ∧
      (mlStepN req ii x s).sum.toNat = s.sum.toNat + x.toNat := by
  have hadd : (s.sum + x).toNat = s.sum.toNat + x.toNat := by
    rw [BitVec.toNat_add, Nat.mod_eq_of_lt h]
  have hz : ((s.sum + x).toNat : Int) = (s.sum.toNat : Int) + (x.toNat : Int) := by rw [hadd]; rfl
  have heq : s.sum + x = req ↔ (s.sum.toNat : Int) + (x.toNat : Int) = (req.toNat : Int) := by
    rw [← hz, Int.ofNat_inj, BitVec.toNat_inj]
  have h0 : req = 0 ↔ (req.toNat : Int) = 0 := by
    rw [← BitVec.toNat_inj]
    simp
  obtain ⟨m, sum, occ⟩ := s
  simp only at hz heq hadd
  have e : (⟨m, sum, occ⟩ : MlStateN w).toInt = ⟨m, (sum.toNat : Int), occ⟩ := rfl
  rw [e]
  unfold mlStepN mlStep
  by_cases h1 : sum + x = req
  · simp only [MlStateN.toInt, if_pos h1, if_pos (heq.1 h1)]
    exact ⟨by rw [hz], hadd⟩
  · simp only [MlStateN.toInt, if_neg h1, if_neg (fun e => h1 (heq.2 e)), hz]
    cases occ.lookup ((sum.toNat : Int) + (x.toNat : Int) - (req.toNat : Int)) with
    | some j => exact ⟨by simp only [hz], hadd⟩
    | none =>
      simp only
      by_cases h2 : req = 0 ∨ occ.lookup ((sum.toNat : Int) + (x.toNat : Int)) = none
      · simp only [h2, h2.imp h0.1 id, if_true]
        exact ⟨by simp only [hz], hadd⟩
      · have h3 : ¬ ((req.toNat : Int) = 0 ∨ occ.lookup ((sum.toNat : Int) + (x.toNat : Int)) = none) :=
          fun e => h2 (e.imp h0.2 id)
        simp only [h2, h3, if_false]
        exact ⟨by simp only [hz], hadd⟩

theorem mlLoopN_toInt {w : Nat} (req : BitVec w) : ∀ (l : List (BitVec w)) (ii : Nat) (s : MlStateN w),
    s.sum.toNat + (l.map BitVec.toNat).sum < 2 ^ w →
    (mlLoopN req l ii s).toInt = mlLoop (req.toNat : Int) (l.map (fun x => (x.toNat : Int))) ii s.toInt
  | [], _, _, _ => rfl
  | x :: rest, ii, s, h => by
    simp only [List.map_cons, List.sum_cons] at h
    obtain ⟨h1, h2⟩ := mlStepN_toInt req ii x s (by omega)
    unfold mlLoopN
    rw [mlLoopN_toInt req rest (ii + 1) _ (by omega), h1]
    rfl

/-- C218 as documented, without the maximality of C74. -/
def C218_statement : Prop := ∀ (w : Nat) (l : List (BitVec w)) (r : BitVec w),
  (0 < maxLengthOfSumN l r → HasSubPlain l r (maxLengthOfSumN l r)) ∧
    (maxLengthOfSumN l r = 0 ↔ ∀ n, 0 < n → ¬ HasSubPlain l r n)

/-- C218: where the sum of the whole sequence fits the type the answer is that for the same integers. -/
theorem C218_agrees {w : Nat} (l : List (BitVec w)) (r : BitVec w) (hfit : (l.map BitVec.toNat).sum < 2 ^ w) :
    maxLengthOfSumN l r = maxLengthOfSum (l.map (fun x => (x.toNat : Int))) (r.toNat : Int) := by
  have h := mlLoopN_toInt r l 0 ⟨0, 0, []⟩ (by simpa using hfit)
  have := congrArg MlState.maxLength h
  unfold maxLengthOfSumN maxLengthOfSum
  simpa [MlStateN.toInt] using this

theorem sum_toInt {w : Nat} : ∀ s : List (BitVec w),
    (s.map (fun x => (x.toNat : Int))).sum = ((s.map BitVec.toNat).sum : Int)
  | [] => rfl
  | x :: s => by simp only [List.map_cons, List.sum_cons, sum_toInt s, Int.natCast_add]

/-- C218 where the sum of the whole sequence fits the type.  Missing: other sequences, for which subarrays are missed
and others taken for them (`C218_counterexample`). -/
theorem C218_sound_partial {w : Nat} (l : List (BitVec w)) (r : BitVec w) (hfit : (l.map BitVec.toNat).sum < 2 ^ w) :
    (0 < maxLengthOfSumN l r → HasSubPlain l r (maxLengthOfSumN l r)) ∧
    (maxLengthOfSumN l r = 0 ↔ ∀ n, 0 < n → ¬ HasSubPlain l r n) := by
  have key : ∀ n, HasSub (l.map (fun x => (x.toNat : Int))) (r.toNat : Int) n ↔ HasSubPlain l r n := by
    intro n
    constructor
    · rintro ⟨s, hs, hl, hsum⟩
      obtain ⟨t, ht, rfl⟩ := List.infix_map_iff.1 hs
      refine ⟨t, ht, by simpa using hl, ?_⟩
      rw [sum_toInt] at hsum
      exact Int.ofNat_inj.1 hsum
    · rintro ⟨s, hs, hl, hsum⟩
      exact ⟨s.map (fun x => (x.toNat : Int)), hs.map _, by simpa using hl, by rw [sum_toInt, hsum]⟩
  rw [C218_agrees l r hfit]
  simpa only [key] using C73_sound (l.map (fun x => (x.toNat : Int))) (r.toNat : Int)

/-- C218, unlike `C217_found`: among the bytes 200 and 100 the subarray 100 is missed, since the second sum wraps around
and the difference does not. -/
theorem C218_missed : HasSubPlain [200#8, 100#8] 100#8 1 ∧ maxLengthOfSumN [200#8, 100#8] 100#8 = 0 ∧
    maxLengthOfSumU [200#8, 100#8] 100#8 = 1 :=
  ⟨⟨[100#8], ⟨[200#8], [], rfl⟩, rfl, rfl⟩, by decide, by decide⟩

/-- C218 does not hold. -/
theorem C218_counterexample : ¬ C218_statement := fun h =>
  (h 8 [200#8, 100#8] 100#8).2.1 C218_missed.2.1 1 (by decide) C218_missed.1

example : maxLengthOfSumN [1#8, 2#8, 3#8, 0#8] 5#8 = 3 := by decide
example : maxLengthOfSumN [128#8, 128#8] 0#8 = 2 := by decide

end Verif.Seqs
