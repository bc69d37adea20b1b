import Verif.Seqs.MissingSigned
import Verif.Seqs.PropsMissingExact

/-
C156, exactly: which searches for a missing element of an arithmetic sequence overflow.
-/

namespace Verif.Seqs

theorem chk_or (lo hi x : Int) : chk lo hi x = .ub ∨ chk lo hi x = .ok x := by
  by_cases h : Fits lo hi x
  · exact Or.inr (chk_ok h)
  · exact Or.inl (chk_ub h)

/-- C156: for every sequence whatsoever and every width, a 64 bit search that is defined gives the answer that it gives
without bounds: an overflow is never silent. -/
theorem C156_defined (wlo whi lo hi : Int) (l : List Int) (factor lower : Int) :
    findArithS wlo whi lo hi id l factor lower = .ub ∨
    findArithS wlo whi lo hi id l factor lower = findArith l factor lower := by
  have loop : ∀ it count, arithLoopS wlo whi lo hi id l factor lower it count = .ub ∨
      arithLoopS wlo whi lo hi id l factor lower it count = arithLoop l factor lower it count := by
    intro it
    induction it with
    | zero => intro count; exact Or.inr rfl
    | succ it ih =>
      intro count
      simp only [arithLoopS, arithLoop, id]
      rcases chk_or wlo whi (((count / 2 : Nat) : Int) * factor) with h | h
      · left; rw [h]; rfl
      rw [h, Res.bind_ok]
      rcases chk_or wlo whi (lower + ((count / 2 : Nat) : Int) * factor) with h | h
      · left; rw [h]; rfl
      rw [h, Res.bind_ok]
      by_cases h0 : count / 2 = 0
      · right; rw [if_pos h0, if_pos h0]
      rw [if_neg h0, if_neg h0]
      cases rd l (count / 2) with
      | exc e => right; rfl
      | ub => left; rfl
      | ok v =>
        simp only [Res.bind_ok]
        by_cases h1 : lower + ((count / 2 : Nat) : Int) * factor = v
        · rw [if_pos h1, if_pos h1]; exact ih _
        rw [if_neg h1, if_neg h1]
        cases rd l (count / 2 - 1) with
        | exc e => right; rfl
        | ub => left; rfl
        | ok w =>
          simp only [Res.bind_ok]
          rcases chk_or lo hi (lower + ((count / 2 : Nat) : Int) * factor - factor) with h | h
          · left; rw [h]; rfl
          rw [h, Res.bind_ok]
          by_cases h2 : w = lower + ((count / 2 : Nat) : Int) * factor - factor
          · right; rw [if_pos h2, if_pos h2]
          · rw [if_neg h2, if_neg h2]; exact ih _
  unfold findArithS findArith
  cases rd l 0 with
  | exc e => right; rfl
  | ub => left; rfl
  | ok v =>
    simp only [Res.bind_ok]
    by_cases hv : v ≠ lower
    · rw [if_pos hv, if_pos hv]
      rcases chk_or lo hi (lower + factor) with h | h
      · left; rw [h]; rfl
      · right; rw [h, Res.bind_ok]
    · rw [if_neg hv, if_neg hv]; exact loop _ _

/-- C156, exactly: when all elements of the progression fit the type and an inner element is missing, the search is
undefined iff it looks, before it meets the missing position, at a position that is beyond the end or whose distance from
the first element does not fit the wider type (otherwise see `C156_defined` and `C156_int_partial`). -/
theorem C156_exact (wlo whi lo hi : Int) (nar : Int → Int) (hnar : ∀ x, Fits lo hi x → nar x = x) (hw1 : wlo ≤ lo) (hw2 : hi ≤ whi)
    (lower factor : Int) (n k : Nat) (hf : factor ≠ 0) (h0 : 0 < k) (hk : k < n)
    (hfit : ∀ i ≤ n, Fits lo hi (lower + (i : Int) * factor)) :
    findArithS wlo whi lo hi nar (arithGap lower factor n k) factor lower = .ub ↔
      ∃ i < n, (n ≤ probe k n i ∨ ¬ Fits wlo whi ((probe k n i : Int) * factor)) ∧ ∀ j < i, probe k n j ≠ k := by
  have loop : ∀ it count, 2 ≤ count →
      (arithLoopS wlo whi lo hi nar (arithGap lower factor n k) factor lower it count = .ub ↔
        ∃ i < it, (n ≤ probe k count i ∨ ¬ Fits wlo whi ((probe k count i : Int) * factor)) ∧ ∀ j < i, probe k count j ≠ k) := by
    intro it
    induction it with
    | zero =>
      intro count _
      refine ⟨(fun h => by cases h), ?_⟩
      rintro ⟨i, hi, -⟩; exact absurd hi (Nat.not_lt_zero _)
    | succ it ih =>
      intro count hc
      have e0 : probe k count 0 = count / 2 := rfl
      simp only [arithLoopS]
      by_cases hbad : n ≤ count / 2 ∨ ¬ Fits wlo whi (((count / 2 : Nat) : Int) * factor)
      · refine ⟨fun _ => ⟨0, Nat.succ_pos _, hbad, fun j hj => absurd hj (Nat.not_lt_zero _)⟩, fun _ => ?_⟩
        rcases chk_or wlo whi (((count / 2 : Nat) : Int) * factor) with h | h
        · rw [h]; rfl
        rw [h, Res.bind_ok]
        rcases chk_or wlo whi (lower + ((count / 2 : Nat) : Int) * factor) with h' | h'
        · rw [h']; rfl
        rw [h', Res.bind_ok, if_neg (by omega)]
        rcases hbad with hb | hb
        · rw [rd_gap_ge _ (by omega) hb]; rfl
        · rw [chk_ub hb] at h; cases h
      · obtain ⟨hn, hfw⟩ := not_or.1 hbad
        have hfw := Classical.not_not.1 hfw
        have f1 := hfit (count / 2) (by omega)
        rw [chk_ok hfw, Res.bind_ok, chk_ok ⟨le_trans hw1 f1.1, le_trans f1.2 hw2⟩, Res.bind_ok, hnar _ f1, if_neg (by omega)]
        rw [rd_gap _ (show count / 2 < n by omega), rd_gap _ (show count / 2 - 1 < n by omega)]
        simp only [Res.bind_ok]
        have cast1 : ((count / 2 - 1 : Nat) : Int) = ((count / 2 : Nat) : Int) - 1 := by omega
        rcases Nat.lt_trichotomy (count / 2) k with hlt | heq | hgt
        · rw [if_pos (by rw [if_pos hlt]), ih _ (by omega)]
          have ep : ∀ i, probe k count (i + 1) = probe k (count + count / 2) i := by
            intro i; show probe k (if _ then _ else _) i = _; rw [if_pos hlt]
          constructor
          · rintro ⟨i, hi, hp, hj⟩
            refine ⟨i + 1, Nat.succ_lt_succ hi, by rw [ep]; exact hp, fun j hj' => ?_⟩
            cases j with
            | zero => omega
            | succ j => rw [ep]; exact hj j (Nat.lt_of_succ_lt_succ hj')
          · rintro ⟨i, hi, hp, hj⟩
            cases i with
            | zero => exact absurd hp hbad
            | succ i =>
              exact ⟨i, Nat.lt_of_succ_lt_succ hi, by rw [← ep]; exact hp, fun j hj' => by
                rw [← ep]; exact hj (j + 1) (Nat.succ_lt_succ hj')⟩
        · have hk1 : ¬ count / 2 < k := by omega
          have hk2 : count / 2 - 1 < k := by omega
          rw [if_neg hk1, if_pos hk2, if_neg (by
            intro h
            apply hf
            push_cast at h
            have : ((count / 2 : Nat) : Int) * factor + factor = (((count / 2 : Nat) : Int) + 1) * factor := by ring
            push_cast at this
            omega)]
          have f2 := hfit (count / 2 - 1) (by omega)
          have e : lower + ((count / 2 : Nat) : Int) * factor - factor = lower + ((count / 2 - 1 : Nat) : Int) * factor := by
            rw [cast1]; ring
          rw [e, chk_ok f2, Res.bind_ok, if_pos rfl]
          refine ⟨(fun h => by cases h), ?_⟩
          rintro ⟨i, hi, hp, hj⟩
          cases i with
          | zero => exact absurd hp hbad
          | succ i => exact absurd heq (hj 0 (Nat.succ_pos _))
        · have hk1 : ¬ count / 2 < k := by omega
          have hk2 : ¬ count / 2 - 1 < k := by omega
          rw [if_neg hk1, if_neg hk2, if_neg (by
            intro h
            apply hf
            push_cast at h
            have : ((count / 2 : Nat) : Int) * factor + factor = (((count / 2 : Nat) : Int) + 1) * factor := by ring
            push_cast at this
            omega)]
          have f2 := hfit (count / 2 - 1) (by omega)
          have e : lower + ((count / 2 : Nat) : Int) * factor - factor = lower + ((count / 2 - 1 : Nat) : Int) * factor := by
            rw [cast1]; ring
          rw [e, chk_ok f2, Res.bind_ok, if_neg (by
            rw [cast1]
            intro h
            apply hf
            have h' : (((count / 2 - 1 + 1 : Nat) : Int)) = ((count / 2 : Nat) : Int) := by omega
            rw [h'] at h
            have : (((count / 2 : Nat) : Int) - 1) * factor = ((count / 2 : Nat) : Int) * factor - factor := by ring
            omega), ih _ (by omega)]
          have ep : ∀ i, probe k count (i + 1) = probe k (count - count / 2) i := by
            intro i; show probe k (if _ then _ else _) i = _; rw [if_neg hk1]
          constructor
          · rintro ⟨i, hi, hp, hj⟩
            refine ⟨i + 1, Nat.succ_lt_succ hi, by rw [ep]; exact hp, fun j hj' => ?_⟩
            cases j with
            | zero => omega
            | succ j => rw [ep]; exact hj j (Nat.lt_of_succ_lt_succ hj')
          · rintro ⟨i, hi, hp, hj⟩
            cases i with
            | zero => exact absurd hp hbad
            | succ i =>
              exact ⟨i, Nat.lt_of_succ_lt_succ hi, by rw [← ep]; exact hp, fun j hj' => by
                rw [← ep]; exact hj (j + 1) (Nat.succ_lt_succ hj')⟩
  unfold findArithS
  rw [rd_gap _ (by omega : 0 < n), if_pos h0]
  simp only [Res.bind_ok, Nat.cast_zero, zero_mul, add_zero, ne_eq, not_true_eq_false, if_false]
  rw [gap_length _ (by omega)]
  exact loop n n (by omega)

example : findArithS llMin llMax llMin llMax id (arithGap llMin 4611686018427387903 4 3) 4611686018427387903 llMin = .ub ∧
    probe 3 4 0 = 2 ∧ ¬ Fits llMin llMax (((probe 3 4 0 : Nat) : Int) * 4611686018427387904) := by decide +kernel

end Verif.Seqs
