import Verif.Seqs.MaxSumUnsigned

/-
C217: max_length_of_sum (classic/sequences/subarray.h) for sequences of unsigned integers that are at least as wide as
`int`: all sums and differences are taken modulo `2^w`.
-/

namespace Verif.Seqs

/-- State of `max_length_of_sum` (subarray.h:33-35) for an unsigned type of `w` bits.  The keys of `first_occurrence`
are converted to `long long`, which keeps different values of up to 64 bits apart; they are left as they are here. -/
structure MlStateU (w : Nat) where
  maxLength : Nat
  sum : BitVec w
  occ : List (BitVec w × Nat)

/-- One iteration of `max_length_of_sum` (subarray.h:37-52). -/
def mlStepU {w : Nat} (req : BitVec w) (ii : Nat) (x : BitVec w) (s : MlStateU w) : MlStateU w :=
  let sum := s.sum + x                                         -- :39
  if sum = req then { s with sum := sum, maxLength := ii + 1 } -- :40-42
  else
    match s.occ.lookup (sum - req) with                        -- :44
    | some j => { s with sum := sum, maxLength := max s.maxLength (ii - j) }  -- :45-47
    | none =>
      if req = 0 ∨ s.occ.lookup sum = none then                -- :48-50
        { s with sum := sum, occ := (sum, ii) :: s.occ }
      else { s with sum := sum }

def mlLoopU {w : Nat} (req : BitVec w) : List (BitVec w) → Nat → MlStateU w → MlStateU w
  | [], _, s => s
  | x :: rest, ii, s => mlLoopU req rest (ii + 1) (mlStepU req ii x s)

/-- `subarray_t::max_length_of_sum` (subarray.h:30-55) for an unsigned type. -/
def maxLengthOfSumU {w : Nat} (l : List (BitVec w)) (req : BitVec w) : Nat := (mlLoopU req l 0 ⟨0, 0, []⟩).maxLength

/-- Some contiguous subarray of `l` has length `n` and a sum that is `r` modulo `2^w`. -/
def HasSubWrapped {w : Nat} (l : List (BitVec w)) (r : BitVec w) (n : Nat) : Prop :=
  ∃ s : List (BitVec w), s <:+: l ∧ s.length = n ∧ (s.map BitVec.toNat).sum % 2 ^ w = r.toNat

/-- Some contiguous subarray of `l` has length `n` and the sum `r`. -/
def HasSubPlain {w : Nat} (l : List (BitVec w)) (r : BitVec w) (n : Nat) : Prop :=
  ∃ s : List (BitVec w), s <:+: l ∧ s.length = n ∧ (s.map BitVec.toNat).sum = r.toNat

/-- Sums of the beginnings, modulo `2^w`. -/
def psumU {w : Nat} (l : List (BitVec w)) (i : Nat) : BitVec w := BitVec.ofNat w ((l.take i).map BitVec.toNat).sum

theorem psumU_split {w : Nat} (l : List (BitVec w)) (i n : Nat) :
    psumU l (i + n) = psumU l i + BitVec.ofNat w (((l.drop i).take n).map BitVec.toNat).sum := by
  unfold psumU
  rw [List.take_add, List.map_append, List.sum_append, BitVec.ofNat_add]

theorem psumU_succ {w : Nat} {l : List (BitVec w)} {i : Nat} (h : i < l.length) :
    psumU l (i + 1) = psumU l i + l[i] := by
  unfold psumU
  rw [List.take_succ_eq_append_getElem h, List.map_append, List.sum_append, BitVec.ofNat_add]
  simp

theorem psumU_zero {w : Nat} (l : List (BitVec w)) : psumU l 0 = 0#w := by simp [psumU]

theorem hasSubWrapped_iff {w : Nat} (l : List (BitVec w)) (r : BitVec w) (n : Nat) :
    HasSubWrapped l r n ↔ ∃ i, i + n ≤ l.length ∧ psumU l (i + n) = psumU l i + r := by
  constructor
  · rintro ⟨s, ⟨a, b, rfl⟩, rfl, hr⟩
    refine ⟨a.length, by simp, ?_⟩
    rw [psumU_split, ← (mod_eq_toNat_iff r).1 hr]
    simp
  · rintro ⟨i, hi, hr⟩
    refine ⟨(l.drop i).take n, ?_, by simp; omega, ?_⟩
    · exact (List.take_prefix _ _).isInfix.trans (List.drop_suffix _ _).isInfix
    · rw [psumU_split] at hr
      rw [mod_eq_toNat_iff]
      exact (BitVec.add_right_inj _).1 hr

/-- What is true after `ii` iterations of `max_length_of_sum`. -/
structure MlInvU {w : Nat} (l : List (BitVec w)) (r : BitVec w) (ii : Nat) (s : MlStateU w) : Prop where
  sum : s.sum = psumU l ii
  occ : ∀ v j, s.occ.lookup v = some j → j < ii ∧ psumU l (j + 1) = v
  sound : s.maxLength = 0 ∨ ∃ i, i + s.maxLength ≤ ii ∧ psumU l (i + s.maxLength) = psumU l i + r
  stored : s.maxLength = 0 → ∀ j, j < ii → s.occ.lookup (psumU l (j + 1)) ≠ none
  found : s.maxLength = 0 → ∀ i j, i < j → j ≤ ii → psumU l j ≠ psumU l i + r

theorem lookupU_self {w : Nat} (k : BitVec w) (v : Nat) (l : List (BitVec w × Nat)) :
    ((k, v) :: l).lookup k = some v := by
  simp [List.lookup]

theorem lookupU_ne {w : Nat} {k k' : BitVec w} (v : Nat) (l : List (BitVec w × Nat)) (h : k' ≠ k) :
    ((k, v) :: l).lookup k' = l.lookup k' := by
  simp [List.lookup, show (k' == k) = false by simpa using h]

theorem mlInvU_step {w : Nat} {l : List (BitVec w)} {r : BitVec w} {ii : Nat} {s : MlStateU w} (hi : ii < l.length) (h : MlInvU l r ii s) :
    MlInvU l r (ii + 1) (mlStepU r ii l[ii] s) := by
  have hs : s.sum + l[ii] = psumU l (ii + 1) := by rw [h.sum, psumU_succ hi]
  unfold mlStepU
  simp only [hs]
  split
  · rename_i heq
    exact { sum := rfl
            occ := fun v j hv => ⟨by have := (h.occ v j hv).1; omega, (h.occ v j hv).2⟩
            sound := Or.inr ⟨0, by simp, by simp only [psumU_zero, Nat.zero_add, heq, BitVec.zero_add]⟩
            stored := fun h0 => by simp at h0
            found := fun h0 => by simp at h0 }
  · rename_i hne
    split
    · rename_i j hj
      have hjj := h.occ _ _ hj
      refine { sum := rfl, occ := fun v j hv => ⟨by have := (h.occ v j hv).1; omega, (h.occ v j hv).2⟩
               sound := Or.inr ?_, stored := fun h0 => ?_, found := fun h0 => ?_ }
      · rcases Nat.le_total s.maxLength (ii - j) with hm | hm
        · simp only [Nat.max_eq_right hm]
          refine ⟨j + 1, by omega, ?_⟩
          rw [show j + 1 + (ii - j) = ii + 1 by omega, hjj.2, BitVec.sub_add_cancel]
        · simp only [Nat.max_eq_left hm]
          rcases h.sound with h0 | ⟨i, hi1, hi2⟩
          · omega
          · exact ⟨i, by omega, hi2⟩
      · simp at h0; omega
      · simp at h0; omega
    · rename_i hnone
      have key : ∀ occ' : List (BitVec w × Nat),
          (∀ v j, occ'.lookup v = some j → j < ii + 1 ∧ psumU l (j + 1) = v) →
          (∀ v, s.occ.lookup v ≠ none → occ'.lookup v ≠ none) → occ'.lookup (psumU l (ii + 1)) ≠ none →
          MlInvU l r (ii + 1) { s with sum := psumU l (ii + 1), occ := occ' } := by
        intro occ' h1 h2 h3
        refine { sum := rfl, occ := h1, sound := ?_, stored := fun h0 j hj => ?_, found := fun h0 i j hij hj => ?_ }
        · rcases h.sound with h0 | ⟨i, hi1, hi2⟩
          · exact Or.inl h0
          · exact Or.inr ⟨i, by simp only; omega, hi2⟩
        · by_cases hji : j = ii
          · subst hji; exact h3
          · exact h2 _ (h.stored h0 j (by omega))
        · by_cases hji : j ≤ ii
          · exact h.found h0 i j hij hji
          · have : j = ii + 1 := by omega
            subst this
            intro he
            cases i with
            | zero => rw [psumU_zero, BitVec.zero_add] at he; exact hne he
            | succ i =>
              have := h.stored h0 i (by omega)
              rw [show psumU l (i + 1) = psumU l (ii + 1) - r by rw [he, BitVec.add_sub_cancel]] at this
              exact this hnone
      split
      · apply key
        · intro v j hv
          by_cases hvv : v = psumU l (ii + 1)
          · subst hvv; rw [lookupU_self] at hv; injection hv with hv; subst hv; exact ⟨by omega, rfl⟩
          · rw [lookupU_ne _ _ hvv] at hv
            exact ⟨by have := (h.occ v j hv).1; omega, (h.occ v j hv).2⟩
        · intro v hv
          by_cases hvv : v = psumU l (ii + 1)
          · subst hvv; rw [lookupU_self]; simp
          · rwa [lookupU_ne _ _ hvv]
        · rw [lookupU_self]; simp
      · rename_i hor
        have := key s.occ (fun v j hv => ⟨by have := (h.occ v j hv).1; omega, (h.occ v j hv).2⟩) (fun _ h => h)
          (fun h => hor (Or.inr h))
        exact this

theorem mlLoopU_spec {w : Nat} {l : List (BitVec w)} {r : BitVec w} (Inv : Nat → MlStateU w → Prop)
    (step : ∀ ii s, (hi : ii < l.length) → Inv ii s → Inv (ii + 1) (mlStepU r ii l[ii] s)) :
    ∀ n ii s, l.length - ii = n → ii ≤ l.length → Inv ii s → Inv l.length (mlLoopU r (l.drop ii) ii s) := by
  intro n
  induction n with
  | zero =>
    intro ii s hn hle h
    have : ii = l.length := by omega
    subst this; simpa [mlLoopU] using h
  | succ n ih =>
    intro ii s hn hle h
    have hi : ii < l.length := by omega
    rw [List.drop_eq_getElem_cons hi]
    exact ih (ii + 1) _ (by omega) (by omega) (step ii s hi h)

theorem mlU_inv {w : Nat} (l : List (BitVec w)) (r : BitVec w) : MlInvU l r l.length (mlLoopU r l 0 ⟨0, 0, []⟩) := by
  have := mlLoopU_spec (l := l) (r := r) (MlInvU l r) (fun ii s hi h => mlInvU_step hi h) l.length 0 ⟨0, 0, []⟩ rfl
    (Nat.zero_le _)
    { sum := (psumU_zero l).symm, occ := by simp, sound := Or.inl rfl
      stored := by intro _ j hj; omega
      found := by intro _ i j hij hj; omega }
  simpa using this

/-- C217 as documented, without the maximality of C74: a positive answer is the length of a subarray with the required
sum, and the answer is 0 exactly when no non-empty subarray has it. -/
def C217_statement : Prop := ∀ (w : Nat) (l : List (BitVec w)) (r : BitVec w),
  (0 < maxLengthOfSumU l r → HasSubPlain l r (maxLengthOfSumU l r)) ∧
    (maxLengthOfSumU l r = 0 ↔ ∀ n, 0 < n → ¬ HasSubPlain l r n)

/-- C217, what the code computes: sums agree modulo `2^w`. -/
theorem C217_wrapped {w : Nat} (l : List (BitVec w)) (r : BitVec w) :
    (0 < maxLengthOfSumU l r → HasSubWrapped l r (maxLengthOfSumU l r)) ∧
    (maxLengthOfSumU l r = 0 ↔ ∀ n, 0 < n → ¬ HasSubWrapped l r n) := by
  have h := mlU_inv l r
  have hs : 0 < maxLengthOfSumU l r → HasSubWrapped l r (maxLengthOfSumU l r) := by
    intro h0
    rcases h.sound with h1 | ⟨i, h1, h2⟩
    · unfold maxLengthOfSumU at h0; omega
    · exact (hasSubWrapped_iff _ _ _).mpr ⟨i, h1, h2⟩
  refine ⟨hs, fun h0 n hn hsub => ?_, fun hnone => ?_⟩
  · obtain ⟨i, hi, hr⟩ := (hasSubWrapped_iff _ _ _).mp hsub
    exact h.found h0 i (i + n) (by omega) hi hr
  · by_contra hc
    exact hnone _ (by omega) (hs (by omega))

/-- C217 where the sum of the whole sequence fits the type.  Missing: other sequences, where a sum that wraps around to
the required one is taken for it (`C217_counterexample`). -/
theorem C217_sound_partial {w : Nat} (l : List (BitVec w)) (r : BitVec w) (hfit : (l.map BitVec.toNat).sum < 2 ^ w) :
    (0 < maxLengthOfSumU l r → HasSubPlain l r (maxLengthOfSumU l r)) ∧
    (maxLengthOfSumU l r = 0 ↔ ∀ n, 0 < n → ¬ HasSubPlain l r n) := by
  have key : ∀ n, HasSubWrapped l r n ↔ HasSubPlain l r n := by
    intro n
    refine exists_congr fun s => and_congr_right fun hs => and_congr_right fun _ => ?_
    rw [Nat.mod_eq_of_lt (Nat.lt_of_le_of_lt (sum_le_of_sublist (hs.sublist.map BitVec.toNat)) hfit)]
  simpa only [key] using C217_wrapped l r

/-- C217, no subarray is missed altogether: if one has the required sum the answer is not 0. -/
theorem C217_found {w : Nat} (l : List (BitVec w)) (r : BitVec w) (n : Nat) (hn : 0 < n) (h : HasSubPlain l r n) :
    0 < maxLengthOfSumU l r := by
  refine Nat.pos_of_ne_zero fun h0 => (C217_wrapped l r).2.1 h0 n hn ?_
  obtain ⟨s, hs, hl, hsum⟩ := h
  exact ⟨s, hs, hl, by rw [hsum, Nat.mod_eq_of_lt r.isLt]⟩

/-- C217 does not hold: no subarray of `2^31, 2^31` has the sum 0, but the answer for 32 bits is 2. -/
theorem C217_counterexample : ¬ C217_statement := by
  intro h
  have h1 : maxLengthOfSumU [0x80000000#32, 0x80000000#32] 0#32 = 2 := by decide
  have h2 := (h 32 [0x80000000#32, 0x80000000#32] 0#32).1 (by rw [h1]; decide)
  rw [h1] at h2
  obtain ⟨s, hs, hl, hsum⟩ := h2
  have := hs.eq_of_length hl
  subst this
  exact absurd hsum (by decide)

example : maxLengthOfSumU [1#32, 2#32, 3#32, 0#32] 5#32 = 3 := by decide
example : maxLengthOfSumU [1#32, 2#32, 4#32] 8#32 = 0 := by decide

end Verif.Seqs
