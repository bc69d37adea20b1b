import Verif.Seqs.PropsMissing

/-!
C67 and C69, exactly: which missing elements the two searches over integers find.

The outcome depends only on the number `n` of elements that are left and on the position `k` of the missing one.  The searches keep
a number `count`, look at the position `count / 2`, and then add the half of `count` to it or subtract it; they never adjust the
left end.
-/

namespace Verif.Seqs

/-- The positions that a search for position `k` looks at, starting with the given `count`. -/
def probe (k : Nat) : Nat → Nat → Nat
  | count, 0 => count / 2
  | count, i + 1 => probe k (if count / 2 < k then count + count / 2 else count - count / 2) i

-- 16 elements, the 12th missing: 8, 12, …; the 11th missing: the search comes back to the position 8 and never ends
example : (List.range 3).map (probe 12 16) = [8, 12, 6] := by decide
example : (List.range 12).map (probe 11 16) = [8, 12, 6, 9, 13, 7, 10, 15, 8, 12, 6, 9] := by decide

theorem probe_small {k count : Nat} (h0 : 0 < k) (hc : count / 2 = 0) (i : Nat) : probe k count i = 0 := by
  induction i generalizing count with
  | zero => exact hc
  | succ i ih =>
    unfold probe
    rw [if_pos (by omega), hc]
    exact ih hc

theorem next_two {k count : Nat} (h0 : 0 < k) (hc : 2 ≤ count) (hk : count / 2 ≠ k) :
    2 ≤ (if count / 2 < k then count + count / 2 else count - count / 2) := by
  split <;> omega

/-- The three outcomes of the arithmetic search. -/
theorem hunt_exact {n k : Nat} (h0 : 0 < k) (hk : k < n) (it : Nat) : ∀ count, 2 ≤ count →
    (hunt n k it count = .ok true ↔ ∃ i < it, probe k count i = k ∧ ∀ j < i, probe k count j < n) ∧
    (hunt n k it count = .ub ↔ ∃ i < it, n ≤ probe k count i ∧ ∀ j < i, probe k count j ≠ k) ∧
    (hunt n k it count = .exc .invalid ↔ ∀ i < it, probe k count i ≠ k ∧ probe k count i < n) := by
  induction it with
  | zero =>
    intro count _
    refine ⟨⟨(fun h => by cases h), ?_⟩, ⟨(fun h => by cases h), ?_⟩, ⟨fun _ i hi => absurd hi (Nat.not_lt_zero _), fun _ => rfl⟩⟩
    · rintro ⟨i, hi, -⟩; exact absurd hi (Nat.not_lt_zero _)
    · rintro ⟨i, hi, -⟩; exact absurd hi (Nat.not_lt_zero _)
  | succ it ih =>
    intro count hc
    have e0 : probe k count 0 = count / 2 := rfl
    simp only [hunt]
    rw [if_neg (by omega : ¬ count / 2 = 0)]
    by_cases hn : n ≤ count / 2
    · rw [if_pos hn]
      refine ⟨⟨(fun h => by cases h), ?_⟩, ⟨fun _ => ⟨0, Nat.succ_pos _, hn, fun j hj => absurd hj (Nat.not_lt_zero _)⟩, fun _ => rfl⟩,
        ⟨(fun h => by cases h), fun h => ?_⟩⟩
      · rintro ⟨i, -, hi, hj⟩
        cases i with
        | zero => omega
        | succ i => have := hj 0 (Nat.succ_pos _); omega
      · have := (h 0 (Nat.succ_pos _)).2; omega
    · rw [if_neg hn]
      by_cases he : count / 2 = k
      · rw [if_neg (by omega), if_pos he]
        refine ⟨⟨fun _ => ⟨0, Nat.succ_pos _, he, fun j hj => absurd hj (Nat.not_lt_zero _)⟩, fun _ => rfl⟩,
          ⟨(fun h => by cases h), ?_⟩, ⟨(fun h => by cases h), fun h => absurd he (h 0 (Nat.succ_pos _)).1⟩⟩
        rintro ⟨i, -, hi, hj⟩
        cases i with
        | zero => omega
        | succ i => exact absurd he (hj 0 (Nat.succ_pos _))
      · have e : (if count / 2 < k then hunt n k it (count + count / 2) else if count / 2 = k then .ok true
            else hunt n k it (count - count / 2)) = hunt n k it (if count / 2 < k then count + count / 2 else count - count / 2) := by
          by_cases h : count / 2 < k
          · rw [if_pos h, if_pos h]
          · rw [if_neg h, if_neg h, if_neg he]
        rw [e]
        obtain ⟨i1, i2, i3⟩ := ih _ (next_two h0 hc he)
        rw [i1, i2, i3]
        refine ⟨⟨?_, ?_⟩, ⟨?_, ?_⟩, ⟨?_, ?_⟩⟩
        · rintro ⟨i, hi, hp, hj⟩
          refine ⟨i + 1, Nat.succ_lt_succ hi, hp, fun j hj' => ?_⟩
          cases j with
          | zero => omega
          | succ j => exact hj j (Nat.lt_of_succ_lt_succ hj')
        · rintro ⟨i, hi, hp, hj⟩
          cases i with
          | zero => exact absurd hp he
          | succ i => exact ⟨i, Nat.lt_of_succ_lt_succ hi, hp, fun j hj' => hj (j + 1) (Nat.succ_lt_succ hj')⟩
        · rintro ⟨i, hi, hp, hj⟩
          refine ⟨i + 1, Nat.succ_lt_succ hi, hp, fun j hj' => ?_⟩
          cases j with
          | zero => exact he
          | succ j => exact hj j (Nat.lt_of_succ_lt_succ hj')
        · rintro ⟨i, hi, hp, hj⟩
          cases i with
          | zero => exact absurd hp hn
          | succ i => exact ⟨i, Nat.lt_of_succ_lt_succ hi, hp, fun j hj' => hj (j + 1) (Nat.succ_lt_succ hj')⟩
        · intro h i hi
          cases i with
          | zero => exact ⟨he, by omega⟩
          | succ i => exact h i (Nat.lt_of_succ_lt_succ hi)
        · intro h i hi
          exact h (i + 1) (Nat.succ_lt_succ hi)

/-- C67, exactly: when `n` elements are left of a progression whose inner position `k` is missing, the element is found if and only
if the search looks at position `k` within `n` rounds, without leaving the sequence before; the search reads beyond the end if and
only if it leaves the sequence before; and otherwise, if it goes back and forth without meeting `k`, it throws. -/
theorem C67_exact (lower factor : Int) (n k : Nat) (hf : factor ≠ 0) (h0 : 0 < k) (hk : k < n) :
    (findArith (arithGap lower factor n k) factor lower = .ok (true, lower + (k : Int) * factor) ↔
      ∃ i < n, probe k n i = k ∧ ∀ j < i, probe k n j < n) ∧
    (findArith (arithGap lower factor n k) factor lower = .ub ↔ ∃ i < n, n ≤ probe k n i ∧ ∀ j < i, probe k n j ≠ k) ∧
    (findArith (arithGap lower factor n k) factor lower = .exc .invalid ↔ ∀ i < n, probe k n i ≠ k ∧ probe k n i < n) := by
  obtain ⟨h1, h2, h3⟩ := hunt_exact h0 hk n n (by omega)
  have hne := hunt_ne_false (n := n) h0 n n (by omega)
  rw [findArith_hunt hf (by omega) h0 (by omega), ← h1, ← h2, ← h3]
  cases hh : hunt n k n n with
  | ok b =>
    cases b with
    | true =>
      refine ⟨⟨fun _ => rfl, fun _ => rfl⟩, ⟨fun h => ?_, (fun h => by cases h)⟩, ⟨fun h => ?_, (fun h => by cases h)⟩⟩
      · simp only [Res.bind_ok] at h; cases h
      · simp only [Res.bind_ok] at h; cases h
    | false => exact absurd hh hne
  | exc e =>
    refine ⟨⟨(fun h => by cases h), (fun h => by cases h)⟩, ⟨(fun h => by cases h), (fun h => by cases h)⟩, ⟨fun h => ?_, fun h => ?_⟩⟩
    · cases h; rfl
    · cases h; rfl
  | ub => exact ⟨⟨(fun h => by cases h), (fun h => by cases h)⟩, ⟨fun _ => rfl, fun _ => rfl⟩, ⟨(fun h => by cases h), (fun h => by cases h)⟩⟩

-- of 16 elements, exactly these missing positions are found; for 11 the search throws, for 13 to 15 it reads beyond the end
example : (List.range 16).filter (fun k => findArith (arithGap 1 1 16 k) 1 1 = .ok (true, 1 + k)) = [0, 1, 2, 3, 4, 5, 6, 7, 8, 9, 10, 12] := by
  decide +kernel
example : findArith (arithGap 1 1 16 11) 1 1 = .exc .invalid ∧ findArith (arithGap 1 1 16 13) 1 1 = .ub := by decide +kernel

/-- The four outcomes of the geometric search. -/
theorem ghunt_exact {n k : Nat} (h0 : 0 < k) (hk : k < n) (it : Nat) : ∀ count, 2 ≤ count →
    (ghunt n k it count = .ok true ↔ ∃ i < it, (probe k count i = k ∨ probe k count i + 1 = k) ∧ probe k count i + 1 < n ∧
      ∀ j < i, probe k count j + 1 < n) ∧
    (ghunt n k it count = .ok false ↔ ∃ i < it, probe k count i = n ∧
      ∀ j < i, probe k count j ≠ k ∧ probe k count j + 1 ≠ k ∧ probe k count j + 1 < n) ∧
    (ghunt n k it count = .ub ↔ ∃ i < it, n ≤ probe k count i + 1 ∧ probe k count i ≠ n ∧
      ∀ j < i, probe k count j ≠ k ∧ probe k count j + 1 ≠ k ∧ probe k count j + 1 < n) ∧
    (ghunt n k it count = .exc .invalid ↔ ∀ i < it, probe k count i ≠ k ∧ probe k count i + 1 ≠ k ∧ probe k count i + 1 < n) := by
  induction it with
  | zero =>
    intro count hc
    simp only [ghunt]
    rw [if_neg (by omega : ¬ count = 0)]
    refine ⟨⟨(fun h => by cases h), ?_⟩, ⟨(fun h => by cases h), ?_⟩, ⟨(fun h => by cases h), ?_⟩,
      ⟨fun _ i hi => absurd hi (Nat.not_lt_zero _), fun _ => rfl⟩⟩
    · rintro ⟨i, hi, -⟩; exact absurd hi (Nat.not_lt_zero _)
    · rintro ⟨i, hi, -⟩; exact absurd hi (Nat.not_lt_zero _)
    · rintro ⟨i, hi, -⟩; exact absurd hi (Nat.not_lt_zero _)
  | succ it ih =>
    intro count hc
    have e0 : probe k count 0 = count / 2 := rfl
    simp only [ghunt]
    rw [if_neg (by omega : ¬ count = 0)]
    have nol : ∀ {P : Nat → Prop}, (∀ j, j < 0 → P j) := fun j hj => absurd hj (Nat.not_lt_zero _)
    by_cases hn : count / 2 = n
    · rw [if_pos (Or.inr hn)]
      refine ⟨⟨(fun h => by cases h), ?_⟩, ⟨fun _ => ⟨0, Nat.succ_pos _, hn, nol⟩, fun _ => rfl⟩, ⟨(fun h => by cases h), ?_⟩,
        ⟨(fun h => by cases h), fun h => ?_⟩⟩
      · rintro ⟨i, -, -, hi, hj⟩
        cases i with
        | zero => omega
        | succ i => have := hj 0 (Nat.succ_pos _); omega
      · rintro ⟨i, -, -, hi, hj⟩
        cases i with
        | zero => exact absurd hn hi
        | succ i => have := (hj 0 (Nat.succ_pos _)).2.2; omega
      · have := (h 0 (Nat.succ_pos _)).2.2; omega
    · rw [if_neg (by omega)]
      by_cases hu : n ≤ count / 2 + 1
      · rw [if_pos hu]
        refine ⟨⟨(fun h => by cases h), ?_⟩, ⟨(fun h => by cases h), ?_⟩, ⟨fun _ => ⟨0, Nat.succ_pos _, hu, hn, nol⟩, fun _ => rfl⟩,
          ⟨(fun h => by cases h), fun h => ?_⟩⟩
        · rintro ⟨i, -, -, hi, hj⟩
          cases i with
          | zero => omega
          | succ i => have := hj 0 (Nat.succ_pos _); omega
        · rintro ⟨i, -, hi, hj⟩
          cases i with
          | zero => exact absurd hi hn
          | succ i => have := (hj 0 (Nat.succ_pos _)).2.2; omega
        · have := (h 0 (Nat.succ_pos _)).2.2; omega
      · rw [if_neg hu]
        by_cases he : count / 2 + 1 = k ∨ count / 2 = k
        · rw [if_pos he]
          refine ⟨⟨fun _ => ⟨0, Nat.succ_pos _, he.symm, by omega, nol⟩, fun _ => rfl⟩, ⟨(fun h => by cases h), ?_⟩,
            ⟨(fun h => by cases h), ?_⟩, ⟨(fun h => by cases h), fun h => ?_⟩⟩
          · rintro ⟨i, -, hi, hj⟩
            cases i with
            | zero => exact absurd hi hn
            | succ i => have := hj 0 (Nat.succ_pos _); omega
          · rintro ⟨i, -, hi, -, hj⟩
            cases i with
            | zero => exact absurd hi hu
            | succ i => have := hj 0 (Nat.succ_pos _); omega
          · have := h 0 (Nat.succ_pos _); omega
        · rw [if_neg he]
          have e : (if count / 2 < k then ghunt n k it (count + count / 2) else ghunt n k it (count - count / 2)) =
              ghunt n k it (if count / 2 < k then count + count / 2 else count - count / 2) := by
            by_cases h : count / 2 < k
            · rw [if_pos h, if_pos h]
            · rw [if_neg h, if_neg h]
          rw [e]
          obtain ⟨i1, i2, i3, i4⟩ := ih _ (next_two h0 hc (by omega))
          rw [i1, i2, i3, i4]
          clear i1 i2 i3 i4
          have hx : probe k count 0 ≠ k ∧ probe k count 0 + 1 ≠ k ∧ probe k count 0 + 1 < n := by omega
          refine ⟨⟨?_, ?_⟩, ⟨?_, ?_⟩, ⟨?_, ?_⟩, ⟨?_, ?_⟩⟩
          · rintro ⟨i, hi, hp, hq, hj⟩
            refine ⟨i + 1, Nat.succ_lt_succ hi, hp, hq, fun j hj' => ?_⟩
            cases j with
            | zero => omega
            | succ j => exact hj j (Nat.lt_of_succ_lt_succ hj')
          · rintro ⟨i, hi, hp, hq, hj⟩
            cases i with
            | zero => omega
            | succ i => exact ⟨i, Nat.lt_of_succ_lt_succ hi, hp, hq, fun j hj' => hj (j + 1) (Nat.succ_lt_succ hj')⟩
          · rintro ⟨i, hi, hp, hj⟩
            refine ⟨i + 1, Nat.succ_lt_succ hi, hp, fun j hj' => ?_⟩
            cases j with
            | zero => omega
            | succ j => exact hj j (Nat.lt_of_succ_lt_succ hj')
          · rintro ⟨i, hi, hp, hj⟩
            cases i with
            | zero => exact absurd hp hn
            | succ i => exact ⟨i, Nat.lt_of_succ_lt_succ hi, hp, fun j hj' => hj (j + 1) (Nat.succ_lt_succ hj')⟩
          · rintro ⟨i, hi, hp, hq, hj⟩
            refine ⟨i + 1, Nat.succ_lt_succ hi, hp, hq, fun j hj' => ?_⟩
            cases j with
            | zero => omega
            | succ j => exact hj j (Nat.lt_of_succ_lt_succ hj')
          · rintro ⟨i, hi, hp, hq, hj⟩
            cases i with
            | zero => exact absurd hp hu
            | succ i => exact ⟨i, Nat.lt_of_succ_lt_succ hi, hp, hq, fun j hj' => hj (j + 1) (Nat.succ_lt_succ hj')⟩
          · intro h i hi
            cases i with
            | zero => omega
            | succ i => exact h i (Nat.lt_of_succ_lt_succ hi)
          · intro h i hi
            exact h (i + 1) (Nat.succ_lt_succ hi)

/-- C69, exactly: when `n` elements are left of a progression whose inner position `k` is missing, the element is found if and only
if the search looks at position `k` or `k - 1` within `n` rounds, before it looks at the last position or one beyond; if it comes to
the end exactly it answers that nothing is missing, if it comes to another such position it reads beyond the end, and if it does
none of this in `n` rounds it throws. -/
theorem C69_exact (lower factor : Int) (n k : Nat) (hl : lower ≠ 0) (hf : factor ≠ 0) (h1 : factor ≠ 1) (h0 : 0 < k) (hk : k < n) :
    (findGeom (geomGap lower factor n k) factor lower = .ok (true, lower * factor ^ k) ↔
      ∃ i < n, (probe k n i = k ∨ probe k n i + 1 = k) ∧ probe k n i + 1 < n ∧ ∀ j < i, probe k n j + 1 < n) ∧
    (findGeom (geomGap lower factor n k) factor lower = .ok (false, lower) ↔
      ∃ i < n, probe k n i = n ∧ ∀ j < i, probe k n j ≠ k ∧ probe k n j + 1 ≠ k ∧ probe k n j + 1 < n) ∧
    (findGeom (geomGap lower factor n k) factor lower = .ub ↔ ∃ i < n, n ≤ probe k n i + 1 ∧ probe k n i ≠ n ∧
      ∀ j < i, probe k n j ≠ k ∧ probe k n j + 1 ≠ k ∧ probe k n j + 1 < n) ∧
    (findGeom (geomGap lower factor n k) factor lower = .exc .invalid ↔
      ∀ i < n, probe k n i ≠ k ∧ probe k n i + 1 ≠ k ∧ probe k n i + 1 < n) := by
  obtain ⟨e1, e2, e3, e4⟩ := ghunt_exact h0 hk n n (by omega)
  rw [findGeom_ghunt hf h1 hl (by omega) h0 (by omega), ← e1, ← e2, ← e3, ← e4]
  cases ghunt n k n n with
  | ok b =>
    simp only [Res.bind_ok]
    cases b with
    | true => exact ⟨⟨fun _ => rfl, fun _ => rfl⟩, ⟨(fun h => by cases h), (fun h => by cases h)⟩, ⟨(fun h => by cases h), (fun h => by cases h)⟩,
        ⟨(fun h => by cases h), (fun h => by cases h)⟩⟩
    | false => exact ⟨⟨(fun h => by cases h), (fun h => by cases h)⟩, ⟨fun _ => rfl, fun _ => rfl⟩, ⟨(fun h => by cases h), (fun h => by cases h)⟩,
        ⟨(fun h => by cases h), (fun h => by cases h)⟩⟩
  | exc e =>
    refine ⟨⟨(fun h => by cases h), (fun h => by cases h)⟩, ⟨(fun h => by cases h), (fun h => by cases h)⟩, ⟨(fun h => by cases h), (fun h => by cases h)⟩,
      ⟨fun h => ?_, fun h => ?_⟩⟩
    · cases h; rfl
    · cases h; rfl
  | ub => exact ⟨⟨(fun h => by cases h), (fun h => by cases h)⟩, ⟨(fun h => by cases h), (fun h => by cases h)⟩, ⟨fun _ => rfl, fun _ => rfl⟩,
      ⟨(fun h => by cases h), (fun h => by cases h)⟩⟩

example : (List.range 16).filter (fun k => findGeom (geomGap 1 2 16 k) 2 1 = .ok (true, 2 ^ k)) =
    [0, 1, 2, 3, 4, 5, 6, 7, 8, 9, 10, 11, 12, 13] := by decide +kernel
example : findGeom (geomGap 1 2 16 14) 2 1 = .ub := by decide +kernel

end Verif.Seqs
