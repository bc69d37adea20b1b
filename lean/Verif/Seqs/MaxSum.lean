import Verif.Seqs.PropsSubarray

/-
C75: exactly when the doubled first element does no harm.
-/

namespace Verif.Seqs

/-- C75, exactly: the answer is right iff the first element is not positive, or some subarray behind the first element
reaches at least the sum of every beginning of the sequence with the first element counted twice. -/
theorem C75_exact (x : Int) (rest : List Int) :
    IsMaxSub (x :: rest) (maxSumOf (x :: rest)) ↔
      x ≤ 0 ∨ ∃ s, s <:+: rest ∧ s ≠ [] ∧ ∀ p, p <+: rest → x + (x + p.sum) ≤ s.sum := by
  have hd := C75_doubled_partial x rest
  obtain ⟨⟨t, ht, htne, hts⟩, hub⟩ := hd
  by_cases hx : x ≤ 0
  · exact ⟨fun _ => Or.inl hx, fun _ => C75_max_partial.2.1 x rest hx⟩
  · have hm : max x (2 * x) = 2 * x := by omega
    rw [hm] at ht hub
    constructor
    · rintro ⟨⟨s, hs, hne, hsum⟩, -⟩
      refine Or.inr ?_
      rcases List.infix_cons_iff.1 hs with h | h
      · rcases List.prefix_cons_iff.1 h with h | ⟨p, rfl, hp⟩
        · exact absurd h hne
        · exfalso
          have := hub (2 * x :: p) ((List.prefix_cons_iff.2 (Or.inr ⟨p, rfl, hp⟩)).isInfix) (by simp)
          simp only [List.sum_cons] at this hsum
          omega
      · refine ⟨s, h, hne, fun p hp => ?_⟩
        have := hub (2 * x :: p) ((List.prefix_cons_iff.2 (Or.inr ⟨p, rfl, hp⟩)).isInfix) (by simp)
        simp only [List.sum_cons] at this
        omega
    · rintro (h | ⟨s, hs, hne, hall⟩)
      · exact absurd h hx
      · refine ⟨?_, fun s hs hne => C75_max_partial.2.2 _ s hs hne⟩
        rcases List.infix_cons_iff.1 ht with h | h
        · rcases List.prefix_cons_iff.1 h with h | ⟨p, rfl, hp⟩
          · exact absurd h htne
          · refine ⟨s, List.infix_cons_iff.2 (Or.inr hs), hne, ?_⟩
            have h1 := hall p hp
            have h2 := hub s (List.infix_cons_iff.2 (Or.inr hs)) hne
            simp only [List.sum_cons] at hts
            omega
        · exact ⟨t, List.infix_cons_iff.2 (Or.inr h), htne, hts⟩

example : maxSumOf [1, -5, 7] = 7 ∧ maxSumOf [1, 2, -5, 3] = 4 := by decide

end Verif.Seqs
