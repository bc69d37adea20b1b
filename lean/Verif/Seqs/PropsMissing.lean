import Verif.Seqs.Missing

/-
C66-C69, C107: the two searches for the element missing from a sorted progression.
Specification: `gap base n k` is the list `base 0, …, base n` with its `k`-th element erased.
-/

namespace Verif.Seqs

/-- The arithmetic progression from which one element is removed. -/
abbrev arithGap (lower factor : Int) (n k : Nat) : List Int := gap (fun i => lower + (i : Int) * factor) n k

/-- The geometric progression from which one element is removed. -/
abbrev geomGap (lower factor : Int) (n k : Nat) : List Int := gap (fun i => lower * factor ^ i) n k

example : arithGap 1 3 4 2 = [1, 4, 10, 13] := by decide
example : geomGap 1 3 4 2 = [1, 3, 27, 81] := by decide

/-! ### C66 -/

/-- C66: whatever `find_missing_arithmetic_in_sorted` reports for a progression with one element removed is the
removed element. -/
theorem C66_sound (lower factor : Int) (n k : Nat) (hf : factor ≠ 0) (hk : k ≤ n) (v : Int)
    (h : findArith (arithGap lower factor n k) factor lower = .ok (true, v)) :
    v = lower + (k : Int) * factor := by
  by_cases hn : n = 0
  · subst hn
    have h' : findArith (arithGap lower factor 0 k) factor lower = .ub := by
      unfold findArith; rw [rd_gap_ge _ hk (Nat.le_refl _)]; rfl
    rw [h'] at h; cases h
  by_cases h0 : k = 0
  · subst h0
    rw [findArith_first hf (by omega)] at h
    injection h with h; injection h with _ h; simp [← h]
  · rw [findArith_hunt hf (by omega) (by omega) hk, Res.bind_eq_ok] at h
    obtain ⟨b, _, h⟩ := h
    injection h with h; injection h with hb h; subst hb; simpa using h.symm

example : findArith (arithGap 5 (-2) 6 3) (-2) 5 = .ok (true, -1) := by decide
example : findArith (arithGap 5 (-2) 6 0) (-2) 5 = .ok (true, 5) := by decide

/-! ### C67 -/

/-- The full claim of C67: an inner element that is missing is found, and a complete progression (the last element
removed) is reported as complete. -/
def C67_statement : Prop :=
  (∀ (lower factor : Int) (n k : Nat), factor ≠ 0 → 0 < k → k < n →
    findArith (arithGap lower factor n k) factor lower = .ok (true, lower + (k : Int) * factor)) ∧
  (∀ (lower factor : Int) (n : Nat), factor ≠ 0 → 0 < n →
    findArith (arithGap lower factor n n) factor lower = .ok (false, lower))

theorem hunt_late {n k : Nat} (hn : 3 ≤ n) (hk : (n + n / 2) / 2 < k) : hunt n k n n = .ub := by
  obtain ⟨m, rfl⟩ : ∃ m, n = m + 3 := ⟨n - 3, by omega⟩
  have e : hunt (m + 3) k (m + 3) (m + 3) = hunt (m + 3) k (m + 1 + 1 + 1) (m + 3) := rfl
  rw [e]
  simp only [hunt]
  rw [if_neg (by omega), if_neg (by omega), if_pos (by omega), if_neg (by omega)]
  by_cases h : m + 3 ≤ (m + 3 + (m + 3) / 2) / 2
  · rw [if_pos h]
  rw [if_neg h, if_pos (by omega), if_neg (by omega), if_pos (by omega)]

/-- C67 fails: an inner element missing from the last quarter is *never* found; the search dereferences an iterator
at or past `last`. -/
theorem C67_counterexample_late (lower factor : Int) (n k : Nat) (hf : factor ≠ 0) (hn : 3 ≤ n) (hk : k ≤ n)
    (h : (n + n / 2) / 2 < k) : findArith (arithGap lower factor n k) factor lower = .ub := by
  rw [findArith_hunt hf (by omega) (by omega) hk, hunt_late hn h]; rfl

/-- C67 fails: a complete progression of three or more elements always makes the search run past `last`. -/
theorem C67_counterexample_complete (lower factor : Int) (n : Nat) (hf : factor ≠ 0) (hn : 3 ≤ n) :
    findArith (arithGap lower factor n n) factor lower = .ub :=
  C67_counterexample_late lower factor n n hf hn (Nat.le_refl _) (by omega)

/-- C67 fails: `1 2 3 4 _ 6 7 8` throws `invalid_sequence_t` although 5 is missing, `1 2 3 4 _ 6` reads past the end. -/
theorem C67_counterexample :
    findArith [1, 2, 3, 4, 6, 7, 8] 1 1 = .exc .invalid ∧ findArith [1, 2, 3, 4, 6] 1 1 = .ub ∧
      findArith [1, 2, 3] 1 1 = .ub ∧ ¬ C67_statement := by
  refine ⟨by decide, by decide, by decide, fun h => ?_⟩
  have := h.1 1 1 5 4 (by decide) (by decide) (by decide)
  rw [C67_counterexample_late 1 1 5 4 (by decide) (by decide) (by decide) (by decide)] at this
  cases this

theorem hunt_ne_false {n k : Nat} (hk : 0 < k) (it count : Nat) (hc : 2 ≤ count) : hunt n k it count ≠ .ok false := by
  induction it generalizing count with
  | zero => simp [hunt]
  | succ it ih =>
    simp only [hunt]
    rw [if_neg (by omega)]
    split
    · simp
    · split
      · exact ih _ (by omega)
      · split
        · simp
        · exact ih _ (by omega)

/-- C67, the part that holds.  For a progression with an inner element missing:
the function never answers "complete"; it finds the element when there are at most four elements, and when the missing
position is the first or second one probed by a search that starts to the right; a missing first element is always
found; a single element is reported complete.
Missing: the other positions (`C67_counterexample_late`, `C67_counterexample`); `C67_exact` says which of them are found. -/
theorem C67_find_partial (lower factor : Int) (hf : factor ≠ 0) :
    (∀ n, 0 < n → findArith (arithGap lower factor n 0) factor lower = .ok (true, lower)) ∧
    (∀ n k, 0 < k → k < n → findArith (arithGap lower factor n k) factor lower ≠ .ok (false, lower)) ∧
    (∀ n k, 0 < k → k < n → (n ≤ 4 ∨ k = n / 2 ∨ k = (n + n / 2) / 2) →
      findArith (arithGap lower factor n k) factor lower = .ok (true, lower + (k : Int) * factor)) ∧
    findArith (arithGap lower factor 1 1) factor lower = .ok (false, lower) := by
  refine ⟨fun n hn => findArith_first hf hn, fun n k h0 hk => ?_, fun n k h0 hk h => ?_, ?_⟩
  · rw [findArith_hunt hf (by omega) h0 (by omega)]
    have := hunt_ne_false (n := n) h0 n n (by omega)
    cases hh : hunt n k n n with
    | ok b => cases b with
      | true => simp
      | false => exact absurd hh this
    | exc e => simp
    | ub => simp
  · rw [findArith_hunt hf (by omega) h0 (by omega)]
    have : hunt n k n n = .ok true := by
      rcases h with h | h | h
      · have : ∀ n ≤ 4, ∀ k < n, 0 < k → hunt n k n n = .ok true := by decide
        exact this n h k hk h0
      · obtain ⟨m, rfl⟩ : ∃ m, n = m + 1 := ⟨n - 1, by omega⟩
        have e : hunt (m + 1) k (m + 1) (m + 1) =
          if (m + 1) / 2 = 0 then .ok false
          else if m + 1 ≤ (m + 1) / 2 then .ub
          else if (m + 1) / 2 < k then hunt (m + 1) k m (m + 1 + (m + 1) / 2)
          else if (m + 1) / 2 = k then .ok true
          else hunt (m + 1) k m (m + 1 - (m + 1) / 2) := rfl
        rw [e, if_neg (by omega), if_neg (by omega), if_neg (by omega), if_pos h.symm]
      · obtain ⟨m, rfl⟩ : ∃ m, n = m + 2 := ⟨n - 2, by omega⟩
        have e : hunt (m + 2) k (m + 2) (m + 2) = hunt (m + 2) k (m + 1 + 1) (m + 2) := rfl
        rw [e]
        simp only [hunt]
        by_cases hh : (m + 2) / 2 < k
        · rw [if_neg (by omega), if_neg (by omega), if_pos hh, if_neg (by omega), if_neg (by omega),
            if_neg (by omega), if_pos h.symm]
        · rw [if_neg (by omega), if_neg (by omega), if_neg hh, if_pos (by omega)]
    rw [this]; rfl
  · rw [findArith_hunt hf (by omega) (by omega) (by omega)]; rfl

/-! ### C68 -/

/-- C68: whatever the integer `find_missing_geometric_in_sorted` reports for a progression of nonzero integers with
one element removed is the removed element. -/
theorem C68_sound (lower factor : Int) (n k : Nat) (hf : factor ≠ 0) (hl : lower ≠ 0) (hk : k ≤ n) (v : Int)
    (h : findGeom (geomGap lower factor n k) factor lower = .ok (true, v)) : v = lower * factor ^ k := by
  by_cases hn : n = 0
  · subst hn
    have h' : findGeom (geomGap lower factor 0 k) factor lower = .ub := by
      unfold findGeom; rw [rd_gap_ge _ hk (Nat.le_refl _)]; rfl
    rw [h'] at h; cases h
  by_cases h1 : factor = 1
  · -- a constant sequence: every candidate equals `lower`
    subst h1
    have key : ∀ it count, geomLoop (geomGap lower 1 n k) 1 lower it count = .ok (true, v) → v = lower := by
      intro it
      induction it with
      | zero => intro count h; simp only [geomLoop] at h; split at h <;> cases h
      | succ it ih =>
        intro count h
        simp only [geomLoop] at h
        split at h
        · cases h
        · split at h
          · cases h
          · rw [Res.bind_eq_ok] at h
            obtain ⟨a, ha, h⟩ := h
            rw [Res.bind_eq_ok] at h
            obtain ⟨b, hb, h⟩ := h
            have ea : ∀ i a, rd (geomGap lower 1 n k) i = .ok a → a = lower := by
              intro i a ha
              by_cases hi : i < n
              · rw [rd_gap _ hi] at ha; injection ha with ha; simp [← ha]
              · rw [rd_gap_ge _ hk (by omega)] at ha; cases ha
            have := ea _ _ ha
            have := ea _ _ hb
            split at h
            · injection h with h; injection h with _ h; subst h; simp_all
            · rw [Res.bind_eq_ok] at h
              obtain ⟨c, hc, h⟩ := h
              have := ea _ _ hc
              split at h
              · injection h with h; injection h with _ h; subst h; simp_all
              · split at h
                · exact ih _ h
                · exact ih _ h
    unfold findGeom at h
    rw [rd_gap _ (by omega)] at h
    simp only [Res.bind_ok, one_pow, mul_one, ne_eq, not_true, if_false] at h
    rw [one_pow, mul_one]
    exact key _ _ h
  by_cases h0 : k = 0
  · subst h0
    rw [findGeom_first h1 hl (by omega)] at h
    injection h with h; injection h with _ h; simp [← h]
  · rw [findGeom_ghunt hf h1 hl (by omega) (by omega) hk, Res.bind_eq_ok] at h
    obtain ⟨b, _, h⟩ := h
    injection h with h; injection h with hb h; subst hb; simpa using h.symm

example : findGeom (geomGap 5 (-2) 6 3) (-2) 5 = .ok (true, -40) := by decide
example : findGeom (geomGap 3 2 8 2) 2 3 = .ok (true, 12) := by decide

/-! ### C69 -/

/-- The full claim of C69. -/
def C69_statement : Prop :=
  ∀ (lower factor : Int) (n k : Nat), lower ≠ 0 → factor ≠ 0 → factor ≠ 1 → 0 < k → k < n →
    findGeom (geomGap lower factor n k) factor lower = .ok (true, lower * factor ^ k)

/-- C69 fails for every progression of three elements with the middle one missing: two elements are left and
`*next(mid)` dereferences `last`. -/
theorem C69_counterexample_two (lower factor : Int) (hl : lower ≠ 0) (hf : factor ≠ 0) (h1 : factor ≠ 1) :
    findGeom (geomGap lower factor 2 1) factor lower = .ub := by
  rw [findGeom_ghunt hf h1 hl (by omega) (by omega) (by omega)]; rfl

/-- C69 fails: an element missing from the last quarter is never found. -/
theorem C69_counterexample_late (lower factor : Int) (n k : Nat) (hl : lower ≠ 0) (hf : factor ≠ 0) (h1 : factor ≠ 1)
    (hn : 3 ≤ n) (hk : k ≤ n) (h : (n + n / 2) / 2 + 1 < k) (v : Int) :
    findGeom (geomGap lower factor n k) factor lower ≠ .ok (true, v) := by
  rw [findGeom_ghunt hf h1 hl (by omega) (by omega) hk]
  have : ghunt n k n n ≠ .ok true := by
    obtain ⟨m, rfl⟩ : ∃ m, n = m + 3 := ⟨n - 3, by omega⟩
    have e : ghunt (m + 3) k (m + 3) (m + 3) = ghunt (m + 3) k (m + 1 + 1 + 1) (m + 3) := rfl
    rw [e]
    simp only [ghunt]
    rw [if_neg (by omega), if_neg (by omega)]
    by_cases hu : m + 3 ≤ (m + 3) / 2 + 1
    · rw [if_pos hu]; simp
    rw [if_neg hu, if_neg (by omega), if_pos (by omega), if_neg (by omega)]
    split
    · simp
    split
    · simp
    rw [if_neg (by omega), if_pos (by omega), if_neg (by omega)]
    split
    · simp
    · rw [if_pos (by omega)]; simp
  cases hh : ghunt n k n n with
  | ok b => cases b with
    | true => exact absurd hh this
    | false => simp
  | exc e => simp
  | ub => simp

/-- C69 fails on concrete input: `1 2 4 8 16 _ 64`… -/
theorem C69_counterexample :
    findGeom [1, 4] 2 1 = .ub ∧ findGeom [1, 2, 4, 8, 16, 32, 64, 128, 512] 2 1 = .ok (false, 1) ∧
      ¬ C69_statement := by
  refine ⟨by decide, by decide, fun h => ?_⟩
  have := h 1 2 2 1 (by decide) (by decide) (by decide) (by decide) (by decide)
  rw [C69_counterexample_two 1 2 (by decide) (by decide) (by decide)] at this
  cases this

/-- C69, the part that holds: the missing inner element is found whenever three to eight elements are left, and, for
any length of at least three, when it is at or right after the middle (or is the first element).
Missing: the other positions of longer sequences, see `C69_counterexample_late`; `C69_exact` says which of them are found. -/
theorem C69_find_partial (lower factor : Int) (n k : Nat) (hl : lower ≠ 0) (hf : factor ≠ 0) (h1 : factor ≠ 1)
    (hn : 3 ≤ n) (hk : k < n) (h : k = 0 ∨ n ≤ 8 ∨ k = n / 2 ∨ k = n / 2 + 1) :
    findGeom (geomGap lower factor n k) factor lower = .ok (true, lower * factor ^ k) := by
  by_cases h0 : k = 0
  · subst h0; rw [findGeom_first h1 hl (by omega)]; simp
  rw [findGeom_ghunt hf h1 hl (by omega) (by omega) (by omega)]
  have : ghunt n k n n = .ok true := by
    by_cases h8 : n ≤ 8
    · have : ∀ n ≤ 8, 3 ≤ n → ∀ k < n, k ≠ 0 → ghunt n k n n = .ok true := by decide
      exact this n h8 hn k hk h0
    · obtain ⟨m, rfl⟩ : ∃ m, n = m + 1 := ⟨n - 1, by omega⟩
      have e : ghunt (m + 1) k (m + 1) (m + 1) =
        if m + 1 = 0 then .ok false
        else if (m + 1) / 2 = 0 ∨ (m + 1) / 2 = m + 1 then .ok false
        else if m + 1 ≤ (m + 1) / 2 + 1 then .ub
        else if (m + 1) / 2 + 1 = k ∨ (m + 1) / 2 = k then .ok true
        else if (m + 1) / 2 < k then ghunt (m + 1) k m (m + 1 + (m + 1) / 2)
        else ghunt (m + 1) k m (m + 1 - (m + 1) / 2) := rfl
      rw [e, if_neg (by omega), if_neg (by omega), if_neg (by omega), if_pos (by omega)]
  rw [this]; rfl

end Verif.Seqs
