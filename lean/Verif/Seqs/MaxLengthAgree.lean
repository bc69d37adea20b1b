import Verif.Seqs.MaxLengthNarrow

/-
C217: max_length_of_sum for wide unsigned types gives the same answer as for integers while nothing wraps around.
-/

namespace Verif.Seqs

/-- The same memo with integers as keys. -/
def occInt {w : Nat} (occ : List (BitVec w × Nat)) : List (Int × Nat) := occ.map fun p => ((p.1.toNat : Int), p.2)

theorem occInt_lookup {w : Nat} (k : BitVec w) : ∀ occ : List (BitVec w × Nat),
    (occInt occ).lookup (k.toNat : Int) = occ.lookup k
  | [] => rfl
  | (a, v) :: occ => by
    have ih := occInt_lookup k occ
    by_cases h : k = a
    · subst h
      simp [occInt, List.lookup]
    · have h' : ((k.toNat : Int) == (a.toNat : Int)) = false := by
        simp only [beq_eq_false_iff_ne, ne_eq, Int.ofNat_inj, BitVec.toNat_inj]
        exact h
      have h'' : (k == a) = false := by simpa using h
      simp only [occInt, List.map_cons, List.lookup, h', h'']
      exact ih

/-- No key exceeds the sum, so that a difference that wraps around is not found. -/
theorem occInt_sub {w : Nat} (occ : List (BitVec w × Nat)) (sum req : BitVec w)
    (hle : ∀ p ∈ occ, p.1.toNat ≤ sum.toNat) :
    (occInt occ).lookup ((sum.toNat : Int) - (req.toNat : Int)) = occ.lookup (sum - req) := by
  by_cases h : req.toNat ≤ sum.toNat
  · have e : (sum - req).toNat = sum.toNat - req.toNat := BitVec.toNat_sub_of_le (BitVec.le_def.2 h)
    rw [← occInt_lookup, e, Int.ofNat_sub h]
  · have e : (sum - req).toNat = 2 ^ w - req.toNat + sum.toNat := by
      rw [BitVec.toNat_sub, Nat.mod_eq_of_lt]
      have := req.isLt
      omega
    have h1 : (occInt occ).lookup ((sum.toNat : Int) - (req.toNat : Int)) = none := by
      rw [List.lookup_eq_none_iff]
      intro p hp
      obtain ⟨q, _, rfl⟩ := List.mem_map.1 hp
      simp only [bne_iff_ne, ne_eq]
      omega
    have h2 : occ.lookup (sum - req) = none := by
      rw [List.lookup_eq_none_iff]
      intro p hp
      simp only [bne_iff_ne, ne_eq]
      intro he
      have := hle p hp
      have := req.isLt
      rw [← he, e] at *
      omega
    rw [h1, h2]

/-- The same state with integers. -/
def MlStateU.toInt {w : Nat} (s : MlStateU w) : MlState := ⟨s.maxLength, (s.sum.toNat : Int), occInt s.occ⟩

/-- An iteration whose sum does not wrap around is that of the integers. -/
theorem mlStepU_toInt {w : Nat} (req : BitVec w) (ii : Nat) (x : BitVec w) (s : MlStateU w)
    (h : s.sum.toNat + x.toNat < 2 ^ w) (hle : ∀ p ∈ s.occ, p.1.toNat ≤ s.sum.toNat) :
    (mlStepU req ii x s).toInt = mlStep (req.toNat : Int) ii (x.toNat : Int) s.toInt ∧
      (mlStepU req ii x s).sum.toNat = s.sum.toNat + x.toNat ∧
      ∀ p ∈ (mlStepU req ii x s).occ, p.1.toNat ≤ s.sum.toNat + x.toNat := by
  have hadd : (s.sum + x).toNat = s.sum.toNat + x.toNat := by
    rw [BitVec.toNat_add, Nat.mod_eq_of_lt h]
  have hz : (s.sum.toNat : Int) + (x.toNat : Int) = ((s.sum + x).toNat : Int) := by rw [hadd]; rfl
  have heq : s.sum + x = req ↔ ((s.sum + x).toNat : Int) = (req.toNat : Int) := by
    rw [Int.ofNat_inj, BitVec.toNat_inj]
  have h0 : req = 0 ↔ (req.toNat : Int) = 0 := by
    rw [← BitVec.toNat_inj]
    simp
  obtain ⟨m, sum, occ⟩ := s
  simp only at hz heq hadd hle
  have hle' : ∀ p ∈ occ, p.1.toNat ≤ sum.toNat + x.toNat := fun p hp => Nat.le_add_right_of_le (hle p hp)
  have hl1 := occInt_sub occ (sum + x) req (fun p hp => by rw [hadd]; exact hle' p hp)
  have hl2 := occInt_lookup (sum + x) occ
  have e : (⟨m, sum, occ⟩ : MlStateU w).toInt = ⟨m, (sum.toNat : Int), occInt occ⟩ := rfl
  rw [e]
  unfold mlStepU mlStep
  by_cases h1 : sum + x = req
  · have h1' : (sum.toNat : Int) + (x.toNat : Int) = (req.toNat : Int) := hz.trans (heq.1 h1)
    simp only [MlStateU.toInt, if_pos h1, if_pos h1']
    exact ⟨by rw [hz], hadd, hle'⟩
  · have h1' : ¬ (sum.toNat : Int) + (x.toNat : Int) = (req.toNat : Int) := fun e => h1 (heq.2 (hz.symm.trans e))
    simp only [MlStateU.toInt, if_neg h1, if_neg h1']
    simp only [hz, hl1, hl2]
    cases occ.lookup (sum + x - req) with
    | some j => exact ⟨rfl, hadd, hle'⟩
    | none =>
      simp only
      by_cases h2 : req = 0 ∨ occ.lookup (sum + x) = none
      · simp only [h2, h2.imp h0.1 id, if_true]
        refine ⟨rfl, hadd, fun p hp => ?_⟩
        rcases List.mem_cons.1 hp with rfl | hp
        · exact Nat.le_of_eq hadd
        · exact hle' p hp
      · have h3 : ¬ ((req.toNat : Int) = 0 ∨ occ.lookup (sum + x) = none) := fun e => h2 (e.imp h0.2 id)
        simp only [h2, h3, if_false]
        exact ⟨trivial, hadd, hle'⟩

theorem mlLoopU_toInt {w : Nat} (req : BitVec w) : ∀ (l : List (BitVec w)) (ii : Nat) (s : MlStateU w),
    s.sum.toNat + (l.map BitVec.toNat).sum < 2 ^ w → (∀ p ∈ s.occ, p.1.toNat ≤ s.sum.toNat) →
    (mlLoopU req l ii s).toInt = mlLoop (req.toNat : Int) (l.map (fun x => (x.toNat : Int))) ii s.toInt
  | [], _, _, _, _ => rfl
  | x :: rest, ii, s, h, hle => by
    simp only [List.map_cons, List.sum_cons] at h
    obtain ⟨h1, h2, h3⟩ := mlStepU_toInt req ii x s (by omega) hle
    unfold mlLoopU
    rw [mlLoopU_toInt req rest (ii + 1) _ (by omega) (by rw [h2]; exact h3), h1]
    rfl

/-- C217: where the sum of the whole sequence fits the type the answer is that for the same integers, so that all that
is known about those (C73, C74) holds. -/
theorem C217_agrees {w : Nat} (l : List (BitVec w)) (r : BitVec w) (hfit : (l.map BitVec.toNat).sum < 2 ^ w) :
    maxLengthOfSumU l r = maxLengthOfSum (l.map (fun x => (x.toNat : Int))) (r.toNat : Int) := by
  have h := mlLoopU_toInt r l 0 ⟨0, 0, []⟩ (by simpa using hfit) (fun _ hp => absurd hp List.not_mem_nil)
  have := congrArg MlState.maxLength h
  unfold maxLengthOfSumU maxLengthOfSum
  simpa [MlStateU.toInt, occInt] using this

/-- C217, C218: the width of the type does not matter where the sum of the whole sequence fits. -/
theorem C218_width {w : Nat} (l : List (BitVec w)) (r : BitVec w) (hfit : (l.map BitVec.toNat).sum < 2 ^ w) :
    maxLengthOfSumN l r = maxLengthOfSumU l r := by
  rw [C217_agrees l r hfit, C218_agrees l r hfit]

example : maxLengthOfSumU [1#32, 2#32, 5#32, 1#32, 1#32, 1#32] 3#32 = 3 := by decide
example : maxLengthOfSumN [1#8, 2#8, 5#8, 1#8, 1#8, 1#8] 3#8 = 3 := by decide

end Verif.Seqs
