import Verif.Seqs.Model
import Mathlib.Tactic.Ring
import Mathlib.Tactic.Linarith
import Mathlib.Algebra.Order.Group.Int
import Mathlib.Algebra.BigOperators.Group.List.Basic

/-
C73-C75: classic/sequences/subarray.h.  A contiguous subarray is an infix (`<:+:`) of the list.
-/

namespace Verif.Seqs

/-- Some contiguous subarray of `l` has length `n` and sum `r`. -/
def HasSub (l : List Int) (r : Int) (n : Nat) : Prop := ∃ s, s <:+: l ∧ s.length = n ∧ s.sum = r

/-- Prefix sums. -/
def psum (l : List Int) (i : Nat) : Int := (l.take i).sum

theorem psum_succ {l : List Int} {i : Nat} (h : i < l.length) : psum l (i + 1) = psum l i + l[i] := by
  unfold psum
  rw [List.take_succ_eq_append_getElem h, List.sum_append, List.sum_singleton]

theorem psum_split (l : List Int) (i n : Nat) : psum l (i + n) = psum l i + ((l.drop i).take n).sum := by
  simp [psum, List.take_add]

theorem hasSub_iff (l : List Int) (r : Int) (n : Nat) :
    HasSub l r n ↔ ∃ i, i + n ≤ l.length ∧ psum l (i + n) - psum l i = r := by
  constructor
  · rintro ⟨s, ⟨a, b, rfl⟩, rfl, rfl⟩
    refine ⟨a.length, by simp, ?_⟩
    rw [psum_split]
    simp
  · rintro ⟨i, hi, hr⟩
    refine ⟨(l.drop i).take n, ?_, by simp; omega, ?_⟩
    · exact (List.take_prefix _ _).isInfix.trans (List.drop_suffix _ _).isInfix
    · rw [psum_split] at hr; linarith

/-- What is true after `ii` iterations of `max_length_of_sum`. -/
structure MlInv (l : List Int) (r : Int) (ii : Nat) (s : MlState) : Prop where
  sum : s.sum = psum l ii
  occ : ∀ v j, s.occ.lookup v = some j → j < ii ∧ psum l (j + 1) = v
  sound : s.maxLength = 0 ∨ ∃ i, i + s.maxLength ≤ ii ∧ psum l (i + s.maxLength) - psum l i = r
  stored : s.maxLength = 0 → ∀ j, j < ii → s.occ.lookup (psum l (j + 1)) ≠ none
  found : s.maxLength = 0 → ∀ i j, i < j → j ≤ ii → psum l j - psum l i ≠ r

theorem lookup_cons_self' (k : Int) (v : Nat) (l : List (Int × Nat)) : ((k, v) :: l).lookup k = some v := by
  simp [List.lookup]

theorem lookup_cons_ne' {k k' : Int} (v : Nat) (l : List (Int × Nat)) (h : k' ≠ k) :
    ((k, v) :: l).lookup k' = l.lookup k' := by
  simp [List.lookup, show (k' == k) = false by simpa using h]

theorem psum_zero (l : List Int) : psum l 0 = 0 := by simp [psum]

theorem mlInv_step {l : List Int} {r : Int} {ii : Nat} {s : MlState} (hi : ii < l.length) (h : MlInv l r ii s) :
    MlInv l r (ii + 1) (mlStep r ii l[ii] s) := by
  have hs : s.sum + l[ii] = psum l (ii + 1) := by rw [h.sum, psum_succ hi]
  unfold mlStep
  simp only [hs]
  split
  · rename_i heq
    exact { sum := rfl
            occ := fun v j hv => ⟨by have := (h.occ v j hv).1; omega, (h.occ v j hv).2⟩
            sound := Or.inr ⟨0, by simp, by simp [psum_zero, heq]⟩
            stored := fun h0 => by simp at h0
            found := fun h0 => by simp at h0 }
  · rename_i hne
    split
    · rename_i j hj
      have hjj := h.occ _ _ hj
      refine { sum := rfl, occ := fun v j hv => ⟨by have := (h.occ v j hv).1; omega, (h.occ v j hv).2⟩
               sound := Or.inr ?_, stored := fun h0 => ?_, found := fun h0 => ?_ }
      · rcases Nat.le_total s.maxLength (ii - j) with hm | hm
        · simp only [Nat.max_eq_right hm]
          refine ⟨j + 1, by omega, ?_⟩
          rw [show j + 1 + (ii - j) = ii + 1 by omega, hjj.2]; ring
        · simp only [Nat.max_eq_left hm]
          rcases h.sound with h0 | ⟨i, hi1, hi2⟩
          · omega
          · exact ⟨i, by omega, hi2⟩
      · simp at h0; omega
      · simp at h0; omega
    · rename_i hnone
      have key : ∀ occ' : List (Int × Nat),
          (∀ v j, occ'.lookup v = some j → j < ii + 1 ∧ psum l (j + 1) = v) →
          (∀ v, s.occ.lookup v ≠ none → occ'.lookup v ≠ none) → occ'.lookup (psum l (ii + 1)) ≠ none →
          MlInv l r (ii + 1) { s with sum := psum l (ii + 1), occ := occ' } := by
        intro occ' h1 h2 h3
        refine { sum := rfl, occ := h1, sound := ?_, stored := fun h0 j hj => ?_, found := fun h0 i j hij hj => ?_ }
        · rcases h.sound with h0 | ⟨i, hi1, hi2⟩
          · exact Or.inl h0
          · exact Or.inr ⟨i, by simp only; omega, hi2⟩
        · by_cases hji : j = ii
          · subst hji; exact h3
          · exact h2 _ (h.stored h0 j (by omega))
        · by_cases hji : j ≤ ii
          · exact h.found h0 i j hij hji
          · have : j = ii + 1 := by omega
            subst this
            intro he
            cases i with
            | zero => rw [psum_zero] at he; apply hne; linarith
            | succ i =>
              have := h.stored h0 i (by omega)
              rw [show psum l (i + 1) = psum l (ii + 1) - r by linarith] at this
              exact this hnone
      split
      · apply key
        · intro v j hv
          by_cases hvv : v = psum l (ii + 1)
          · subst hvv; rw [lookup_cons_self'] at hv; injection hv with hv; subst hv; exact ⟨by omega, rfl⟩
          · rw [lookup_cons_ne' _ _ hvv] at hv
            exact ⟨by have := (h.occ v j hv).1; omega, (h.occ v j hv).2⟩
        · intro v hv
          by_cases hvv : v = psum l (ii + 1)
          · subst hvv; rw [lookup_cons_self']; simp
          · rwa [lookup_cons_ne' _ _ hvv]
        · rw [lookup_cons_self']; simp
      · rename_i hor
        have := key s.occ (fun v j hv => ⟨by have := (h.occ v j hv).1; omega, (h.occ v j hv).2⟩) (fun _ h => h)
          (fun h => hor (Or.inr h))
        exact this

theorem mlLoop_spec {l : List Int} {r : Int} (Inv : Nat → MlState → Prop)
    (step : ∀ ii s, (hi : ii < l.length) → Inv ii s → Inv (ii + 1) (mlStep r ii l[ii] s)) :
    ∀ n ii s, l.length - ii = n → ii ≤ l.length → Inv ii s → Inv l.length (mlLoop r (l.drop ii) ii s) := by
  intro n
  induction n with
  | zero =>
    intro ii s hn hle h
    have : ii = l.length := by omega
    subst this; simpa [mlLoop] using h
  | succ n ih =>
    intro ii s hn hle h
    have hi : ii < l.length := by omega
    rw [List.drop_eq_getElem_cons hi]
    exact ih (ii + 1) _ (by omega) (by omega) (step ii s hi h)

theorem ml_inv (l : List Int) (r : Int) : MlInv l r l.length (mlLoop r l 0 ⟨0, 0, []⟩) := by
  have := mlLoop_spec (l := l) (r := r) (MlInv l r) (fun ii s hi h => mlInv_step hi h) l.length 0 ⟨0, 0, []⟩ rfl
    (Nat.zero_le _)
    { sum := by simp [psum_zero], occ := by simp, sound := Or.inl rfl
      stored := by intro _ j hj; omega
      found := by intro _ i j hij hj; omega }
  simpa using this

/-! ### C73 -/

/-- C73: a positive answer is the length of a subarray with the required sum, and the answer is 0 exactly when no
non-empty subarray has it. -/
theorem C73_sound (l : List Int) (r : Int) :
    (0 < maxLengthOfSum l r → HasSub l r (maxLengthOfSum l r)) ∧
    (maxLengthOfSum l r = 0 ↔ ∀ n, 0 < n → ¬ HasSub l r n) := by
  have h := ml_inv l r
  have hs : 0 < maxLengthOfSum l r → HasSub l r (maxLengthOfSum l r) := by
    intro h0
    rcases h.sound with h1 | ⟨i, h1, h2⟩
    · unfold maxLengthOfSum at h0; omega
    · exact (hasSub_iff _ _ _).mpr ⟨i, h1, h2⟩
  refine ⟨hs, fun h0 n hn hsub => ?_, fun hnone => ?_⟩
  · obtain ⟨i, hi, hr⟩ := (hasSub_iff _ _ _).mp hsub
    exact h.found h0 i (i + n) (by omega) hi hr
  · by_contra hc
    exact hnone _ (by omega) (hs (by omega))

example : maxLengthOfSum [2, -1, 4, 1, -5, 7] 4 = 3 := by decide
example : maxLengthOfSum [1, 2, -3, 3, 0, -3] 0 = 6 := by decide
example : maxLengthOfSum [1, 2, 4] 8 = 0 := by decide

/-! ### C74 -/

/-- The full claim of C74: no longer subarray has the required sum. -/
def C74_statement : Prop := ∀ (l : List Int) (r : Int) (n : Nat), HasSub l r n → n ≤ maxLengthOfSum l r

/-- C74 fails: in `3 1 1 1` the subarray `1 1 1` has sum 3 and length 3, the function answers 1.  The prefix sum
that equals the required sum is not entered in `first_occurrence`. -/
theorem C74_counterexample : maxLengthOfSum [3, 1, 1, 1] 3 = 1 ∧ HasSub [3, 1, 1, 1] 3 3 ∧ ¬ C74_statement := by
  have h : HasSub [3, 1, 1, 1] 3 3 := ⟨[1, 1, 1], ⟨[3], [], rfl⟩, rfl, rfl⟩
  refine ⟨by decide, h, fun hs => ?_⟩
  have := hs _ _ _ h
  revert this
  decide

/-- What is true after `ii` iterations of `max_length_of_sum` when the required sum is 0. -/
structure Ml0 (l : List Int) (ii : Nat) (s : MlState) : Prop where
  sum : s.sum = psum l ii
  occ : ∀ v j, s.occ.lookup v = some j → j < ii ∧ psum l (j + 1) = v
  first : ∀ j, j < ii → psum l (j + 1) ≠ 0 → ∃ j', j' ≤ j ∧ s.occ.lookup (psum l (j + 1)) = some j'
  best : ∀ i j, i < j → j ≤ ii → psum l j = psum l i → j - i ≤ s.maxLength
  bound : s.maxLength ≤ ii

theorem ml0_step {l : List Int} {ii : Nat} {s : MlState} (hi : ii < l.length) (h : Ml0 l ii s) :
    Ml0 l (ii + 1) (mlStep 0 ii l[ii] s) := by
  have hs : s.sum + l[ii] = psum l (ii + 1) := by rw [h.sum, psum_succ hi]
  unfold mlStep
  simp only [hs, Int.sub_zero, true_or, if_true]
  have hfirst : ∀ j, j < ii + 1 → psum l (j + 1) ≠ 0 → j = ii ∨
      ∃ j', j' ≤ j ∧ s.occ.lookup (psum l (j + 1)) = some j' := by
    intro j hj h0
    by_cases hji : j = ii
    · exact Or.inl hji
    · exact Or.inr (h.first j (by omega) h0)
  split
  · rename_i h0
    exact { sum := rfl
            occ := fun v j hv => ⟨by have := (h.occ v j hv).1; omega, (h.occ v j hv).2⟩
            first := fun j hj hne => by
              rcases hfirst j hj hne with rfl | hh
              · exact absurd h0 hne
              · exact hh
            best := fun i j hij hj he => by simp only; omega
            bound := Nat.le_refl _ }
  · rename_i hne0
    split
    · rename_i j0 hj0
      have hb := h.bound
      refine { sum := rfl, occ := fun v j hv => ⟨by have := (h.occ v j hv).1; omega, (h.occ v j hv).2⟩
               first := fun j hj hne => ?_, best := fun i j hij hj he => ?_, bound := ?_ }
      · rcases hfirst j hj hne with rfl | hh
        · exact ⟨j0, by have := (h.occ _ _ hj0).1; omega, hj0⟩
        · exact hh
      · by_cases hji : j ≤ ii
        · exact Nat.le_trans (h.best i j hij hji he) (Nat.le_max_left _ _)
        · have : j = ii + 1 := by omega
          subst this
          cases i with
          | zero => rw [psum_zero] at he; exact absurd he hne0
          | succ i =>
            obtain ⟨j', hj', hl⟩ := h.first i (by omega) (by rw [← he]; exact hne0)
            rw [← he, hj0] at hl
            injection hl with hl
            have := Nat.le_max_right s.maxLength (ii - j0)
            simp only
            omega
      · simp only; omega
    · rename_i hnone
      have hb := h.bound
      refine { sum := rfl, occ := fun v j hv => ?_
               first := fun j hj hne => ?_, best := fun i j hij hj he => ?_, bound := by simp only; omega }
      · by_cases hvv : v = psum l (ii + 1)
        · subst hvv; rw [lookup_cons_self'] at hv; injection hv with hv; subst hv; exact ⟨by omega, rfl⟩
        · rw [lookup_cons_ne' _ _ hvv] at hv
          exact ⟨by have := (h.occ v j hv).1; omega, (h.occ v j hv).2⟩
      · rcases hfirst j hj hne with rfl | ⟨j', h1, h2⟩
        · exact ⟨j, Nat.le_refl _, lookup_cons_self' _ _ _⟩
        · refine ⟨j', h1, ?_⟩
          rw [lookup_cons_ne' _ _ (fun e => ?_)]
          · exact h2
          · rw [e, hnone] at h2; cases h2
      · by_cases hji : j ≤ ii
        · exact h.best i j hij hji he
        · have : j = ii + 1 := by omega
          subst this
          cases i with
          | zero => rw [psum_zero] at he; exact absurd he hne0
          | succ i =>
            obtain ⟨j', hj', hl⟩ := h.first i (by omega) (by rw [← he]; exact hne0)
            rw [← he, hnone] at hl
            cases hl

/-- C74, the part that holds: for a required sum of 0 the answer is the greatest length, and for any required sum it is
positive as soon as some subarray matches and never too large.
Missing: the greatest length for required sums other than 0, see `C74_counterexample`. -/
theorem C74_longest_partial (l : List Int) :
    (∀ n, HasSub l 0 n → n ≤ maxLengthOfSum l 0) ∧ HasSub l 0 (maxLengthOfSum l 0) ∧
    (∀ r n, 0 < n → HasSub l r n → 0 < maxLengthOfSum l r ∧ HasSub l r (maxLengthOfSum l r)) := by
  have h : Ml0 l l.length (mlLoop 0 l 0 ⟨0, 0, []⟩) := by
    have := mlLoop_spec (l := l) (r := 0) (Ml0 l) (fun ii s hi h => ml0_step hi h) l.length 0 ⟨0, 0, []⟩ rfl
      (Nat.zero_le _)
      { sum := by simp [psum_zero], occ := by simp
        first := by intro j hj; omega
        best := by intro i j hij hj; omega
        bound := Nat.le_refl _ }
    simpa using this
  refine ⟨fun n hn => ?_, ?_, fun r n hn hs => ?_⟩
  · obtain ⟨i, hi, he⟩ := (hasSub_iff _ _ _).mp hn
    by_cases h0 : n = 0
    · omega
    have := h.best i (i + n) (by omega) hi (by linarith)
    unfold maxLengthOfSum
    omega
  · by_cases h0 : maxLengthOfSum l 0 = 0
    · rw [h0]; exact ⟨[], List.nil_infix, rfl, rfl⟩
    · exact (C73_sound l 0).1 (by omega)
  · have : maxLengthOfSum l r ≠ 0 := fun h0 => ((C73_sound l r).2.mp h0) n hn hs
    exact ⟨by omega, (C73_sound l r).1 (by omega)⟩

/-- Position `i` is a start: no matching subarray ends at `i` that itself begins at a start. -/
def Start (l : List Int) (r : Int) (i : Nat) : Prop := ∀ i', i' < i → Start l r i' → psum l i ≠ psum l i' + r
termination_by i

theorem start_zero (l : List Int) (r : Int) : Start l r 0 := by
  rw [Start]
  intro i' h
  omega

/-- What is true after `ii` iterations of `max_length_of_sum`, for any required sum. -/
structure MlEx (l : List Int) (r : Int) (ii : Nat) (s : MlState) : Prop where
  sum : s.sum = psum l ii
  occ : ∀ v j, s.occ.lookup v = some j → j < ii ∧ psum l (j + 1) = v ∧ Start l r (j + 1)
  first : ∀ j, j < ii → Start l r (j + 1) → ∃ j', j' ≤ j ∧ s.occ.lookup (psum l (j + 1)) = some j'
  sound : s.maxLength = 0 ∨ ∃ i, Start l r i ∧ i + s.maxLength ≤ ii ∧ psum l (i + s.maxLength) - psum l i = r
  best : ∀ i j, Start l r i → i < j → j ≤ ii → psum l j - psum l i = r → j - i ≤ s.maxLength
  bound : s.maxLength ≤ ii

theorem mlEx_step {l : List Int} {r : Int} {ii : Nat} {s : MlState} (hi : ii < l.length) (h : MlEx l r ii s) :
    MlEx l r (ii + 1) (mlStep r ii l[ii] s) := by
  have hs : s.sum + l[ii] = psum l (ii + 1) := by rw [h.sum, psum_succ hi]
  have hb := h.bound
  have occ' : ∀ v j, s.occ.lookup v = some j → j < ii + 1 ∧ psum l (j + 1) = v ∧ Start l r (j + 1) := fun v j hv =>
    ⟨by have := (h.occ v j hv).1; omega, (h.occ v j hv).2⟩
  have sound' : s.maxLength = 0 ∨ ∃ i, Start l r i ∧ i + s.maxLength ≤ ii + 1 ∧ psum l (i + s.maxLength) - psum l i = r := by
    rcases h.sound with h0 | ⟨i, h1, h2, h3⟩
    · exact Or.inl h0
    · exact Or.inr ⟨i, h1, by omega, h3⟩
  unfold mlStep
  simp only [hs]
  split
  · rename_i heq
    have hns : ¬ Start l r (ii + 1) := by
      intro hst
      rw [Start] at hst
      exact hst 0 (by omega) (start_zero l r) (by rw [psum_zero, heq]; ring)
    refine { sum := rfl, occ := occ', first := fun j hj hst => ?_
             sound := Or.inr ⟨0, start_zero l r, by simp, by simp [psum_zero, heq]⟩
             best := fun i j _ hij hj he => by simp only; omega
             bound := Nat.le_refl _ }
    have : j ≠ ii := by rintro rfl; exact hns hst
    exact h.first j (by omega) hst
  · rename_i hne
    split
    · rename_i j0 hj0
      obtain ⟨hj1, hj2, hj3⟩ := h.occ _ _ hj0
      have hns : ¬ Start l r (ii + 1) := by
        intro hst
        rw [Start] at hst
        exact hst (j0 + 1) (by omega) hj3 (by rw [hj2]; ring)
      refine { sum := rfl, occ := occ', first := fun j hj hst => ?_, sound := Or.inr ?_, best := fun i j hst hij hj he => ?_
               bound := by simp only; omega }
      · have : j ≠ ii := by rintro rfl; exact hns hst
        exact h.first j (by omega) hst
      · rcases Nat.le_total s.maxLength (ii - j0) with hm | hm
        · simp only [Nat.max_eq_right hm]
          refine ⟨j0 + 1, hj3, by omega, ?_⟩
          rw [show j0 + 1 + (ii - j0) = ii + 1 by omega, hj2]; ring
        · simp only [Nat.max_eq_left hm]
          rcases sound' with h0 | h0
          · omega
          · exact h0
      · by_cases hji : j ≤ ii
        · exact Nat.le_trans (h.best i j hst hij hji he) (Nat.le_max_left _ _)
        · have : j = ii + 1 := by omega
          subst this
          cases i with
          | zero => rw [psum_zero] at he; exact absurd (by linarith) hne
          | succ i =>
            obtain ⟨j', hj', hl⟩ := h.first i (by omega) hst
            rw [show psum l (i + 1) = psum l (ii + 1) - r by linarith, hj0] at hl
            injection hl with hl
            have := Nat.le_max_right s.maxLength (ii - j0)
            simp only
            omega
    · rename_i hnone
      have hst : Start l r (ii + 1) := by
        rw [Start]
        intro i' hi' hs' he
        cases i' with
        | zero => rw [psum_zero] at he; exact hne (by linarith)
        | succ i =>
          obtain ⟨j', -, hl⟩ := h.first i (by omega) hs'
          rw [show psum l (i + 1) = psum l (ii + 1) - r by linarith, hnone] at hl
          cases hl
      have best' : ∀ i j, Start l r i → i < j → j ≤ ii + 1 → psum l j - psum l i = r → j - i ≤ s.maxLength := by
        intro i j hsi hij hj he
        by_cases hji : j ≤ ii
        · exact h.best i j hsi hij hji he
        · have : j = ii + 1 := by omega
          subst this
          rw [Start] at hst
          exact absurd (by linarith) (hst i hij hsi)
      split
      · rename_i hcond
        have hfree : s.occ.lookup (psum l (ii + 1)) = none := by
          rcases hcond with h0 | h0
          · rw [h0] at hnone; simpa using hnone
          · exact h0
        refine { sum := rfl, occ := fun v j hv => ?_, first := fun j hj hsj => ?_, sound := sound', best := best'
                 bound := by simp only; omega }
        · by_cases hvv : v = psum l (ii + 1)
          · subst hvv; rw [lookup_cons_self'] at hv; injection hv with hv; subst hv; exact ⟨by omega, rfl, hst⟩
          · rw [lookup_cons_ne' _ _ hvv] at hv
            exact occ' v j hv
        · by_cases hji : j = ii
          · subst hji; exact ⟨j, Nat.le_refl _, lookup_cons_self' _ _ _⟩
          · obtain ⟨j', h1, h2⟩ := h.first j (by omega) hsj
            refine ⟨j', h1, ?_⟩
            rw [lookup_cons_ne' _ _ (fun e => ?_)]
            · exact h2
            · rw [e, hfree] at h2; cases h2
      · rename_i hor
        refine { sum := rfl, occ := occ', first := fun j hj hsj => ?_, sound := sound', best := best', bound := by simp only; omega }
        by_cases hji : j = ii
        · subst hji
          cases hl : s.occ.lookup (psum l (j + 1)) with
          | none => exact absurd (Or.inr hl) hor
          | some j' => exact ⟨j', by have := (h.occ _ _ hl).1; omega, rfl⟩
        · exact h.first j (by omega) hsj

/-- C74, exactly as the code behaves: the answer is the greatest length of a matching subarray that begins at a start (0 if
there is none); matching subarrays that directly follow a matching subarray which begins at a start are overlooked. -/
theorem C74_exact (l : List Int) (r : Int) :
    (0 < maxLengthOfSum l r → ∃ i, Start l r i ∧ i + maxLengthOfSum l r ≤ l.length ∧
      psum l (i + maxLengthOfSum l r) - psum l i = r) ∧
    ∀ i n, Start l r i → 0 < n → i + n ≤ l.length → psum l (i + n) - psum l i = r → n ≤ maxLengthOfSum l r := by
  have h : MlEx l r l.length (mlLoop r l 0 ⟨0, 0, []⟩) := by
    have := mlLoop_spec (l := l) (r := r) (MlEx l r) (fun ii s hi h => mlEx_step hi h) l.length 0 ⟨0, 0, []⟩ rfl
      (Nat.zero_le _)
      { sum := by simp [psum_zero], occ := by simp
        first := by intro j hj; omega
        sound := Or.inl rfl
        best := by intro i j _ hij hj; omega
        bound := Nat.le_refl _ }
    simpa using this
  refine ⟨fun h0 => ?_, fun i n hs hn hl he => ?_⟩
  · rcases h.sound with h1 | h1
    · unfold maxLengthOfSum at h0; omega
    · exact h1
  · have := h.best i (i + n) hs (by omega) hl he
    unfold maxLengthOfSum
    omega

/-- C74, a further part that holds: if no matching subarray directly follows another matching subarray, the answer is the
greatest length.  Missing: sequences with two adjacent matching subarrays, see `C74_exact` for what is computed then. -/
theorem C74_separate_partial (l : List Int) (r : Int)
    (hsep : ∀ a b c d, l = a ++ b ++ c ++ d → b ≠ [] → c ≠ [] → b.sum = r → c.sum ≠ r) :
    ∀ n, HasSub l r n → n ≤ maxLengthOfSum l r := by
  intro n hn
  obtain ⟨i, hi, he⟩ := (hasSub_iff _ _ _).mp hn
  by_cases h0 : n = 0
  · omega
  refine (C74_exact l r).2 i n ?_ (by omega) hi he
  rw [Start]
  intro i' hi' _ hc
  have e1 : psum l (i' + (i - i')) = psum l i' + ((l.drop i').take (i - i')).sum := psum_split _ _ _
  have e2 : psum l (i + n) = psum l i + ((l.drop i).take n).sum := psum_split _ _ _
  rw [show i' + (i - i') = i by omega] at e1
  refine hsep (l.take i') ((l.drop i').take (i - i')) ((l.drop i).take n) (l.drop (i + n)) ?_ ?_ ?_ (by linarith) (by linarith)
  · have : l.take i' ++ (l.drop i').take (i - i') = l.take i := by
      rw [← List.take_add, show i' + (i - i') = i by omega]
    rw [this, ← List.take_add, List.take_append_drop]
  · intro e
    have := congrArg List.length e
    simp at this
    omega
  · intro e
    have := congrArg List.length e
    simp at this
    omega

/-- In `3 1 1 1` position 1 is not a start, since `3` ends there. -/
example : ¬ Start [3, 1, 1, 1] 3 1 := by
  rw [Start]
  intro h
  exact h 0 (by decide) (start_zero _ _) (by decide)
example : Start [3, 1, 1, 1] 3 2 := by
  rw [Start]
  intro i' h _
  have : i' = 0 ∨ i' = 1 := by omega
  rcases this with rfl | rfl <;> decide
example : maxLengthOfSum [1, 2, 5, 1, 1, 1] 3 = 3 := by decide

/-! ### C75 -/

/-- `m` is the greatest sum of a non-empty contiguous subarray of `l`. -/
def IsMaxSub (l : List Int) (m : Int) : Prop :=
  (∃ s, s <:+: l ∧ s ≠ [] ∧ s.sum = m) ∧ ∀ s, s <:+: l → s ≠ [] → s.sum ≤ m

/-- `m` is the greatest sum of a non-empty suffix of `l`. -/
def IsMaxSuf (l : List Int) (m : Int) : Prop :=
  (∃ s, s <:+ l ∧ s ≠ [] ∧ s.sum = m) ∧ ∀ s, s <:+ l → s ≠ [] → s.sum ≤ m

theorem suffix_snoc {s l : List Int} {x : Int} (h : s <:+ l ++ [x]) : s = [] ∨ ∃ t, t <:+ l ∧ s = t ++ [x] := by
  obtain ⟨a, ha⟩ := h
  rcases List.eq_nil_or_concat s with rfl | ⟨t, y, rfl⟩
  · exact Or.inl rfl
  · rw [List.concat_eq_append, ← List.append_assoc] at ha
    have := List.append_inj' ha rfl
    refine Or.inr ⟨t, ⟨a, this.1⟩, ?_⟩
    rw [List.concat_eq_append, this.2]

theorem infix_snoc {s l : List Int} {x : Int} (h : s <:+: l ++ [x]) : s <:+: l ∨ s <:+ l ++ [x] := by
  obtain ⟨a, b, hab⟩ := h
  rcases List.eq_nil_or_concat b with rfl | ⟨t, y, rfl⟩
  · exact Or.inr ⟨a, by simpa using hab⟩
  · rw [List.concat_eq_append, ← List.append_assoc] at hab
    exact Or.inl ⟨a, t, (List.append_inj' hab rfl).1⟩

theorem maxSuf_snoc {l : List Int} {c x : Int} (h : IsMaxSuf l c) : IsMaxSuf (l ++ [x]) (max x (c + x)) := by
  obtain ⟨⟨s, hs, hne, hsum⟩, hle⟩ := h
  refine ⟨?_, fun t ht htne => ?_⟩
  · rcases le_total x (c + x) with h | h
    · refine ⟨s ++ [x], ?_, by simp, by simp [hsum, max_eq_right h]⟩
      obtain ⟨a, rfl⟩ := hs
      exact ⟨a, by simp⟩
    · exact ⟨[x], ⟨l, rfl⟩, by simp, by simp [max_eq_left h]⟩
  · rcases suffix_snoc ht with rfl | ⟨t', ht', rfl⟩
    · exact absurd rfl htne
    · by_cases h0 : t' = []
      · subst h0; simp
      · have := hle t' ht' h0
        simp; right; linarith

theorem maxSub_snoc {l : List Int} {m c x : Int} (h : IsMaxSub l m) (hc : IsMaxSuf (l ++ [x]) c) :
    IsMaxSub (l ++ [x]) (max c m) := by
  obtain ⟨⟨s, hs, hne, hsum⟩, hle⟩ := h
  refine ⟨?_, fun t ht htne => ?_⟩
  · rcases le_total c m with h | h
    · refine ⟨s, ?_, hne, by simp [hsum, max_eq_right h]⟩
      exact hs.trans (List.prefix_append _ _).isInfix
    · obtain ⟨⟨t, ht, htn, hts⟩, _⟩ := hc
      exact ⟨t, ht.isInfix, htn, by simp [hts, max_eq_left h]⟩
  · rcases infix_snoc ht with h | h
    · exact le_trans (hle t h htne) (le_max_right _ _)
    · exact le_trans (hc.2 t h htne) (le_max_left _ _)

theorem msLoop_spec (rest : List Int) : ∀ (l : List Int) (m c : Int), IsMaxSub l m → IsMaxSuf l c →
    IsMaxSub (l ++ rest) (msLoop rest m c) := by
  induction rest with
  | nil => intro l m c h _; simpa [msLoop] using h
  | cons x rest ih =>
    intro l m c hm hc
    have hc' := maxSuf_snoc (x := x) hc
    have := ih (l ++ [x]) _ _ (maxSub_snoc hm hc') hc'
    simpa [msLoop] using this

/-- The full claim of C75. -/
def C75_statement : Prop := ∀ l : List Int, (l = [] → maxSumOf l = 0) ∧ (l ≠ [] → IsMaxSub l (maxSumOf l))

/-- C75 fails for every sequence that starts with a positive number alone: `max_sum_of` of `[x]` is `2x`, because the
loop starts again at `first` after `current_max` has been initialised with `*first`. -/
theorem C75_counterexample : (∀ x : Int, 0 < x → maxSumOf [x] = 2 * x) ∧ maxSumOf [5] = 10 ∧ ¬ C75_statement := by
  have h1 : ∀ x : Int, 0 < x → maxSumOf [x] = 2 * x := by
    intro x hx
    simp only [maxSumOf, msLoop]
    omega
  refine ⟨h1, by decide, fun h => ?_⟩
  obtain ⟨s, hs, hne, hsum⟩ := ((h [5]).2 (by simp)).1
  have : s = [5] := by
    have := hs.sublist
    rcases List.sublist_singleton.mp this with h | h
    · exact absurd h hne
    · exact h
  subst this
  revert hsum
  decide

/-- C75 exactly as the code behaves: the answer is the greatest subarray sum of the sequence whose first element, if
positive, is doubled. -/
theorem C75_doubled_partial (x : Int) (rest : List Int) :
    IsMaxSub (max x (2 * x) :: rest) (maxSumOf (x :: rest)) := by
  have h : maxSumOf (x :: rest) = msLoop rest (max x (2 * x)) (max x (2 * x)) := by
    simp only [maxSumOf, msLoop]
    have : max x (x + x) = max x (2 * x) := by omega
    rw [this]
    congr 1
    omega
  have hone : ∀ s : List Int, s <:+: [max x (2 * x)] → s ≠ [] → s = [max x (2 * x)] := by
    intro s hs hne
    rcases List.sublist_singleton.mp hs.sublist with h | h
    · exact absurd h hne
    · exact h
  rw [h]
  exact msLoop_spec rest [max x (2 * x)] _ _
    ⟨⟨_, List.infix_refl _, by simp, by simp⟩, fun s hs hne => by rw [hone s hs hne]; simp⟩
    ⟨⟨_, List.suffix_refl _, by simp, by simp⟩, fun s hs hne => by rw [hone s hs.isInfix hne]; simp⟩

/-- C75, the part that holds: the empty sequence, sequences whose first element is not positive, and, always, an upper
bound of every subarray sum.
Missing: sequences whose first element is positive, for which `C75_doubled_partial` says what is computed. -/
theorem C75_max_partial :
    maxSumOf [] = 0 ∧ (∀ (x : Int) (rest : List Int), x ≤ 0 → IsMaxSub (x :: rest) (maxSumOf (x :: rest))) ∧
    ∀ (l s : List Int), s <:+: l → s ≠ [] → s.sum ≤ maxSumOf l := by
  refine ⟨rfl, fun x rest hx => ?_, fun l s hs hne => ?_⟩
  · have := C75_doubled_partial x rest
    rwa [show max x (2 * x) = x by omega] at this
  · cases l with
    | nil => exact absurd (List.eq_nil_of_infix_nil hs) hne
    | cons x rest =>
      have h := (C75_doubled_partial x rest).2
      obtain ⟨a, b, hab⟩ := hs
      cases a with
      | nil =>
        cases s with
        | nil => exact absurd rfl hne
        | cons y s =>
          simp only [List.nil_append, List.cons_append, List.cons.injEq] at hab
          obtain ⟨rfl, rfl⟩ := hab
          have := h (max y (2 * y) :: s) ⟨[], b, by simp⟩ (by simp)
          simp only [List.sum_cons] at this ⊢
          have := le_max_left y (2 * y)
          linarith
      | cons z a =>
        simp only [List.cons_append, List.cons.injEq] at hab
        exact h s ⟨max x (2 * x) :: a, b, by simp [← hab.2]⟩ hne

example : maxSumOf [-2, 1, -3, 4, -1, 2, 1, -5, 4] = 6 := by decide
example : maxSumOf [-3, -1, -2] = -1 := by decide

end Verif.Seqs
