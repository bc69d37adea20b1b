import Verif.Seqs.Missing
import Mathlib.Algebra.Order.Field.Rat

/-
C107: the floating point overload of find_missing_geometric_in_sorted, over the rationals.
-/

namespace Verif.Seqs

/-- The geometric progression of rationals from which one element is removed. -/
abbrev ratGap (lower factor : Rat) (n k : Nat) : List Rat := gap (fun i => lower * factor ^ i) n k

/-- The element at position `i` of `ratGap lower factor n k`. -/
def gv (lower factor : Rat) (k i : Nat) : Rat := lower * factor ^ (if i < k then i else i + 1)

theorem rd_ratGap (lower factor : Rat) {n k i : Nat} (hi : i < n) :
    rd (ratGap lower factor n k) i = .ok (gv lower factor k i) := rd_gap _ hi

theorem gv_next {lower factor : Rat} {k i : Nat} (h : i + 1 ≠ k) :
    gv lower factor k (i + 1) = gv lower factor k i * factor := by
  unfold gv
  by_cases h1 : i < k
  · rw [if_pos h1, if_pos (by omega), pow_succ]; ring
  · rw [if_neg h1, if_neg (by omega), pow_succ]; ring

theorem gv_prev {lower factor : Rat} {k i : Nat} (h : i + 1 = k) :
    gv lower factor k i * factor = lower * factor ^ k := by
  unfold gv
  rw [if_pos (by omega), mul_assoc, ← pow_succ, h]

/-- One iteration of the loop. -/
theorem geomFLoop_cases {lower factor err : Rat} {n k : Nat} (he : 0 ≤ err) (hk : k ≤ n) (it count : Nat) :
    let r := geomFLoop (ratGap lower factor n k) factor lower err (it + 1) count
    r = .ok (false, lower) ∨ r = .ub ∨ (r = .ok (true, lower * factor ^ k) ∧ (count / 2 + 1 = k ∨ count / 2 = k)) ∨
      r = geomFLoop (ratGap lower factor n k) factor lower err it (count + count / 2) := by
  simp only [geomFLoop, gap_length _ hk]
  by_cases hc : count = 0
  · simp [hc]
  simp only [hc, if_false]
  by_cases hb : count / 2 = 0 ∨ count / 2 = n
  · left; simp only [hb, if_true]
  simp only [hb, if_false]
  by_cases hu : n ≤ count / 2 + 1
  · right; left
    rw [rd_gap_ge (i := count / 2 + 1) _ hk hu]
    by_cases hq : count / 2 < n
    · rw [rd_gap _ hq]; rfl
    · rw [rd_gap_ge _ hk (by omega)]; rfl
  rw [rd_ratGap _ _ (show count / 2 < n by omega), rd_ratGap _ _ (show count / 2 + 1 < n by omega),
    rd_ratGap _ _ (show count / 2 - 1 < n by omega)]
  simp only [Res.bind_ok]
  right; right
  split
  · rename_i h
    left
    by_cases h2 : count / 2 + 1 = k
    · exact ⟨by rw [gv_prev h2], Or.inl h2⟩
    · exfalso
      rw [gv_next h2] at h
      rcases h with h | h <;> linarith
  · split
    · rename_i h
      left
      by_cases h2 : count / 2 = k
      · exact ⟨by rw [gv_prev (by omega)], Or.inr h2⟩
      · exfalso
        have := gv_next (lower := lower) (factor := factor) (k := k) (i := count / 2 - 1) (by omega)
        rw [show count / 2 - 1 + 1 = count / 2 by omega] at this
        rw [this] at h
        rcases h with h | h <;> linarith
    · right
      rw [if_pos]
      rcases le_total (gv lower factor k (count / 2)) (lower * factor ^ (count / 2)) with h | h
      · left; linarith
      · right; linarith

/-- C107, soundness: on an exact geometric progression with one element removed, whatever is reported is the removed
element (any tolerance `err ≥ 0`). -/
theorem C107_sound_partial (lower factor err : Rat) (n k : Nat) (he : 0 ≤ err) (hk : k ≤ n) (v : Rat)
    (h : findGeomF (ratGap lower factor n k) factor lower err = .ok (true, v)) : v = lower * factor ^ k := by
  have key : ∀ it count, geomFLoop (ratGap lower factor n k) factor lower err it count = .ok (true, v) →
      v = lower * factor ^ k := by
    intro it
    induction it with
    | zero => intro count h; simp only [geomFLoop] at h; split at h <;> cases h
    | succ it ih =>
      intro count h
      rcases geomFLoop_cases (lower := lower) (factor := factor) he hk it count with h' | h' | ⟨h', _⟩ | h'
      · rw [h'] at h; cases h
      · rw [h'] at h; cases h
      · rw [h'] at h; injection h with h; injection h with _ h; exact h.symm
      · rw [h'] at h; exact ih _ h
  unfold findGeomF at h
  by_cases hn : n = 0
  · subst hn; rw [rd_gap_ge _ hk (Nat.le_refl _)] at h; cases h
  rw [rd_ratGap _ _ (by omega)] at h
  simp only [Res.bind_ok] at h
  split at h
  · split at h
    · rename_i h1 _
      injection h with h; injection h with _ h
      by_cases h0 : k = 0
      · subst h0; simp [← h]
      · unfold gv at h1; rw [if_pos (by omega)] at h1; simp at h1
    · cases h
  · exact key _ _ h

/-- The full claim: an inner element whose absence leaves a jump larger than the tolerance is found. -/
def C107_statement : Prop :=
  ∀ (lower factor err : Rat) (n k : Nat), 0 ≤ err → 0 < k → k < n → 3 ≤ n →
    (lower * factor ^ (k + 1) > lower * factor ^ k + err ∨ lower * factor ^ (k + 1) < lower * factor ^ k - err) →
    findGeomF (ratGap lower factor n k) factor lower err = .ok (true, lower * factor ^ k)

/-- C107 fails: the test `*mid <= expected + err || *mid >= expected - err` is always true, the search only ever moves
right, and an element missing from the left half is never found, whatever the progression. -/
theorem C107_counterexample_left (lower factor err : Rat) (n k : Nat) (he : 0 ≤ err) (h0 : 0 < k) (hk : k < n / 2)
    (v : Rat) : findGeomF (ratGap lower factor n k) factor lower err ≠ .ok (true, v) := by
  have key : ∀ it count, k < count / 2 →
      geomFLoop (ratGap lower factor n k) factor lower err it count ≠ .ok (true, v) := by
    intro it
    induction it with
    | zero => intro count _ h; simp only [geomFLoop] at h; split at h <;> cases h
    | succ it ih =>
      intro count hc h
      rcases geomFLoop_cases (lower := lower) (factor := factor) he (show k ≤ n by omega) it count
        with h' | h' | ⟨h', h2⟩ | h'
      · rw [h'] at h; cases h
      · rw [h'] at h; cases h
      · omega
      · rw [h'] at h; exact ih _ (by omega) h
  intro h
  unfold findGeomF at h
  rw [rd_gap _ (by omega), if_pos h0, gap_length _ (show k ≤ n by omega)] at h
  simp only [Res.bind_ok, pow_zero, mul_one, ne_eq, not_true, if_false] at h
  exact key _ _ (by omega) h

theorem C107_counterexample : ¬ C107_statement := by
  intro h
  refine C107_counterexample_left 1 2 0 4 1 (le_refl _) (by omega) (by omega) _
    (h 1 2 0 4 1 (le_refl _) (by omega) (by omega) (by omega) (Or.inl (by norm_num)))

/-- C107, the part that holds: a missing element at, or right after, the middle is found if its absence leaves a jump
larger than the tolerance; so is a missing first element.
Missing: the other positions; `C107_exact` says what happens there. -/
theorem C107_find_partial (lower factor err : Rat) (n k : Nat) (he : 0 ≤ err) (hn : 4 ≤ n)
    (hjump : lower * factor ^ (k + 1) > lower * factor ^ k + err ∨ lower * factor ^ (k + 1) < lower * factor ^ k - err)
    (h : k = 0 ∨ k = n / 2 ∨ k = n / 2 + 1) :
    findGeomF (ratGap lower factor n k) factor lower err = .ok (true, lower * factor ^ k) := by
  have hk : k ≤ n := by omega
  unfold findGeomF
  rw [rd_ratGap _ _ (by omega), gap_length _ hk]
  simp only [Res.bind_ok]
  by_cases h0 : k = 0
  · subst h0
    have e : gv lower factor 0 0 = lower * factor := by simp [gv]
    simp only [pow_one, pow_zero, mul_one, zero_add] at hjump ⊢
    rw [e, if_pos, if_pos rfl]
    intro heq
    rw [heq] at hjump
    rcases hjump with h | h <;> linarith
  have e : gv lower factor k 0 = lower := by unfold gv; rw [if_pos (by omega)]; simp
  rw [e, if_neg (by simp)]
  obtain ⟨m, rfl⟩ : ∃ m, n = m + 1 := ⟨n - 1, by omega⟩
  simp only [geomFLoop, gap_length _ hk]
  rw [if_neg (by omega), if_neg (by omega), rd_ratGap _ _ (show (m + 1) / 2 < m + 1 by omega),
    rd_ratGap _ _ (show (m + 1) / 2 + 1 < m + 1 by omega), rd_ratGap _ _ (show (m + 1) / 2 - 1 < m + 1 by omega)]
  simp only [Res.bind_ok]
  have ek : gv lower factor k k = lower * factor ^ (k + 1) := by unfold gv; rw [if_neg (Nat.lt_irrefl _)]
  rcases h with h | h | h
  · exact absurd h h0
  · rw [← h, gv_next (show k + 1 ≠ k by omega), gv_prev (show k - 1 + 1 = k by omega),
      if_neg (by rintro (h | h) <;> linarith), ek, if_pos hjump]
  · rw [gv_prev h.symm, ← h, ek, if_pos hjump]

/-- One iteration of the loop, when the absence of element `k` leaves a jump larger than the tolerance. -/
theorem geomFLoop_jump {lower factor err : Rat} {n k : Nat} (he : 0 ≤ err) (h0 : 0 < k) (hk : k ≤ n)
    (hjump : lower * factor ^ (k + 1) > lower * factor ^ k + err ∨ lower * factor ^ (k + 1) < lower * factor ^ k - err)
    (it count : Nat) (h1 : 0 < count / 2) (h2 : count / 2 + 1 < n) :
    geomFLoop (ratGap lower factor n k) factor lower err (it + 1) count =
      if count / 2 = k ∨ count / 2 + 1 = k then .ok (true, lower * factor ^ k)
      else geomFLoop (ratGap lower factor n k) factor lower err it (count + count / 2) := by
  have ek : gv lower factor k k = lower * factor ^ (k + 1) := by unfold gv; rw [if_neg (Nat.lt_irrefl _)]
  simp only [geomFLoop, gap_length _ hk]
  rw [if_neg (by omega), if_neg (by omega), rd_ratGap _ _ (show count / 2 < n by omega), rd_ratGap _ _ h2,
    rd_ratGap _ _ (show count / 2 - 1 < n by omega)]
  simp only [Res.bind_ok]
  by_cases e1 : count / 2 + 1 = k
  · rw [if_pos (Or.inr e1), gv_prev e1, e1, ek, if_pos hjump]
  · rw [gv_next e1, if_neg (by rintro (h | h) <;> linarith)]
    by_cases e2 : count / 2 = k
    · rw [if_pos (Or.inl e2), gv_prev (show count / 2 - 1 + 1 = k by omega), e2, ek, if_pos hjump]
    · have := gv_next (lower := lower) (factor := factor) (k := k) (i := count / 2 - 1) (by omega)
      rw [show count / 2 - 1 + 1 = count / 2 by omega] at this
      rw [if_neg (by rw [this]; rintro (h | h) <;> linarith), if_pos, if_neg (by tauto)]
      rcases le_total (gv lower factor k (count / 2)) (lower * factor ^ (count / 2)) with h | h
      · left; linarith
      · right; linarith

/-- C107, exactly: of a progression of five elements or more, a missing element whose absence leaves a jump larger than the
tolerance is found at four positions only, at and after the half and at and after three quarters.  For all others, five,
six, seven and nine elements are reported to be complete, and from longer sequences the function reads past the end. -/
theorem C107_exact (lower factor err : Rat) (n k : Nat) (he : 0 ≤ err) (hn : 5 ≤ n) (h0 : 0 < k) (hk : k ≤ n)
    (hjump : lower * factor ^ (k + 1) > lower * factor ^ k + err ∨ lower * factor ^ (k + 1) < lower * factor ^ k - err) :
    findGeomF (ratGap lower factor n k) factor lower err =
      if k = n / 2 ∨ k = n / 2 + 1 ∨ k = (n + n / 2) / 2 ∨ k = (n + n / 2) / 2 + 1 then .ok (true, lower * factor ^ k)
      else if n = 5 ∨ n = 6 ∨ n = 7 ∨ n = 9 then .ok (false, lower) else .ub := by
  unfold findGeomF
  rw [rd_ratGap _ _ (by omega), gap_length _ hk]
  simp only [Res.bind_ok]
  have e : gv lower factor k 0 = lower := by unfold gv; rw [if_pos (by omega)]; simp
  rw [e, if_neg (by simp)]
  obtain ⟨m, rfl⟩ : ∃ m, n = m + 3 := ⟨n - 3, by omega⟩
  have e3 : geomFLoop (ratGap lower factor (m + 3) k) factor lower err (m + 1) (m + 3 + (m + 3) / 2 + (m + 3 + (m + 3) / 2) / 2) =
      if m + 3 = 5 ∨ m + 3 = 6 ∨ m + 3 = 7 ∨ m + 3 = 9 then .ok (false, lower) else .ub := by
    simp only [geomFLoop, gap_length _ hk]
    rw [if_neg (by omega)]
    by_cases hs : m + 3 = 5 ∨ m + 3 = 6 ∨ m + 3 = 7 ∨ m + 3 = 9
    · rw [if_pos (by omega), if_pos hs]
    · rw [if_neg (by omega), if_neg hs, rd_gap_ge _ hk (by omega)]
      rfl
  rw [geomFLoop_jump he h0 hk hjump (m + 2) (m + 3) (by omega) (by omega),
    geomFLoop_jump he h0 hk hjump (m + 1) (m + 3 + (m + 3) / 2) (by omega) (by omega), e3]
  by_cases c1 : (m + 3) / 2 = k ∨ (m + 3) / 2 + 1 = k
  · rw [if_pos c1, if_pos (by omega)]
  · by_cases c2 : (m + 3 + (m + 3) / 2) / 2 = k ∨ (m + 3 + (m + 3) / 2) / 2 + 1 = k
    · rw [if_neg c1, if_pos c2, if_pos (by omega)]
    · rw [if_neg c1, if_neg c2, if_neg (show ¬ (k = (m + 3) / 2 ∨ k = (m + 3) / 2 + 1 ∨ k = (m + 3 + (m + 3) / 2) / 2 ∨
        k = (m + 3 + (m + 3) / 2) / 2 + 1) by omega)]

example : findGeomF (ratGap 1 2 8 6) 2 1 0 = .ok (true, 64) := by
  rw [C107_exact 1 2 0 8 6 (le_refl _) (by omega) (by omega) (by omega) (Or.inl (by norm_num))]; norm_num
example : findGeomF (ratGap 1 2 8 2) 2 1 0 = .ub := by
  rw [C107_exact 1 2 0 8 2 (le_refl _) (by omega) (by omega) (by omega) (Or.inl (by norm_num))]; norm_num

end Verif.Seqs
