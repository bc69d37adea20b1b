import Verif.Seqs.SubsetUnsigned

/-
C216: max_sum_of (classic/sequences/subarray.h) for sequences of unsigned integers.  No element lowers a sum, so the
greatest sum is that of the whole sequence.
-/

namespace Verif.Seqs

/-- The loop of `max_sum_of` (subarray.h:68-72) for an unsigned type of `w` bits: sums wrap around.  (Types narrower
than `int` do not compile: the arguments of `std::max` have different types.) -/
def maxLoopU {w : Nat} : List (BitVec w) → BitVec w → BitVec w → BitVec w
  | [], _, best => best
  | x :: rest, cur, best =>
    let cur := if x < cur + x then cur + x else x              -- :69
    let best := if cur < best then best else cur               -- :70
    maxLoopU rest cur best

/-- `subarray_t::max_sum_of` (subarray.h:64-73) for an unsigned type: the loop starts at the first element again. -/
def maxSumOfU {w : Nat} : List (BitVec w) → BitVec w
  | [] => 0
  | x :: rest => maxLoopU (x :: rest) x x

/-- `m` is the greatest sum of a non-empty subarray. -/
def IsMaxSubU {w : Nat} (l : List (BitVec w)) (m : Nat) : Prop :=
  (∃ s : List (BitVec w), s <:+: l ∧ s ≠ [] ∧ (s.map BitVec.toNat).sum = m) ∧
    ∀ s : List (BitVec w), s <:+: l → s ≠ [] → (s.map BitVec.toNat).sum ≤ m

/-- The greatest sum is that of everything. -/
theorem isMaxSubU_iff {w : Nat} (l : List (BitVec w)) (m : Nat) (hne : l ≠ []) :
    IsMaxSubU l m ↔ m = (l.map BitVec.toNat).sum := by
  have hub : ∀ s : List (BitVec w), s <:+: l → (s.map BitVec.toNat).sum ≤ (l.map BitVec.toNat).sum :=
    fun s hs => sum_le_of_sublist (hs.sublist.map BitVec.toNat)
  constructor
  · rintro ⟨⟨s, hs, _, rfl⟩, hall⟩
    exact Nat.le_antisymm (hub s hs) (hall l (List.infix_refl l) hne)
  · rintro rfl
    exact ⟨⟨l, List.infix_refl l, hne, rfl⟩, fun s hs _ => hub s hs⟩

theorem maxLoopU_sum {w : Nat} : ∀ (l : List (BitVec w)) (cur : BitVec w),
    cur.toNat + (l.map BitVec.toNat).sum < 2 ^ w →
    (maxLoopU l cur cur).toNat = cur.toNat + (l.map BitVec.toNat).sum
  | [], _, _ => rfl
  | x :: rest, cur, h => by
    simp only [List.map_cons, List.sum_cons] at h ⊢
    have hadd : (cur + x).toNat = cur.toNat + x.toNat := by
      rw [BitVec.toNat_add, Nat.mod_eq_of_lt (by omega)]
    have hc : (if x < cur + x then cur + x else x) = cur + x := by
      split
      · rfl
      · rename_i hn
        rw [BitVec.lt_def, hadd] at hn
        apply BitVec.eq_of_toNat_eq
        omega
    have hb : (if cur + x < cur then cur else cur + x) = cur + x := by
      rw [if_neg]
      rw [BitVec.lt_def, hadd]
      omega
    unfold maxLoopU
    simp only [hc, hb]
    rw [maxLoopU_sum rest (cur + x) (by omega)]
    omega

/-- C216 as documented: the greatest sum, where it fits the type, and 0 for the empty sequence. -/
def C216_statement : Prop := ∀ (w : Nat) (l : List (BitVec w)), (l = [] → maxSumOfU l = 0) ∧
  (l ≠ [] → (l.map BitVec.toNat).sum < 2 ^ w → IsMaxSubU l (maxSumOfU l).toNat)

/-- C216, what the code computes while nothing wraps around: the first element is counted twice. -/
theorem C216_twice {w : Nat} (x : BitVec w) (rest : List (BitVec w))
    (h : x.toNat + ((x :: rest).map BitVec.toNat).sum < 2 ^ w) :
    (maxSumOfU (x :: rest)).toNat = x.toNat + ((x :: rest).map BitVec.toNat).sum :=
  maxLoopU_sum (x :: rest) x h

/-- C216, exactly: while nothing wraps around the answer is right iff the first element is 0. -/
theorem C216_exact {w : Nat} (x : BitVec w) (rest : List (BitVec w))
    (h : x.toNat + ((x :: rest).map BitVec.toNat).sum < 2 ^ w) :
    IsMaxSubU (x :: rest) (maxSumOfU (x :: rest)).toNat ↔ x = 0 := by
  rw [isMaxSubU_iff _ _ (List.cons_ne_nil _ _), C216_twice x rest h]
  constructor
  · intro e
    apply BitVec.eq_of_toNat_eq
    simp only [BitVec.ofNat_eq_ofNat, BitVec.toNat_ofNat, Nat.zero_mod]
    omega
  · rintro rfl
    simp

/-- C216 for the empty sequence and for sequences that begin with 0.  Missing: other sequences, where the first element
is counted twice (`C216_exact`) or that sum wraps around. -/
theorem C216_max_partial {w : Nat} : maxSumOfU ([] : List (BitVec w)) = 0 ∧ ∀ rest : List (BitVec w),
    (((0 : BitVec w) :: rest).map BitVec.toNat).sum < 2 ^ w → IsMaxSubU (0 :: rest) (maxSumOfU (0 :: rest)).toNat := by
  refine ⟨rfl, fun rest h => (C216_exact 0 rest ?_).2 rfl⟩
  simpa using h

theorem maxLoopU_ge {w : Nat} : ∀ (l : List (BitVec w)) (cur best : BitVec w),
    best ≤ maxLoopU l cur best ∧ ∀ y ∈ l, y ≤ maxLoopU l cur best
  | [], _, best => ⟨BitVec.le_refl best, fun _ h => absurd h List.not_mem_nil⟩
  | x :: rest, cur, best => by
    unfold maxLoopU
    simp only
    generalize hc : (if x < cur + x then cur + x else x) = c
    generalize hb : (if c < best then best else c) = b
    obtain ⟨h1, h2⟩ := maxLoopU_ge rest c b
    have hxc : x ≤ c := by
      rw [← hc, BitVec.le_def]
      split
      · rename_i h; rw [BitVec.lt_def] at h; omega
      · omega
    have hcb : c ≤ b ∧ best ≤ b := by
      rw [← hb]
      simp only [BitVec.le_def]
      split
      · rename_i h; rw [BitVec.lt_def] at h; omega
      · rename_i h; rw [BitVec.lt_def] at h; omega
    simp only [BitVec.le_def] at *
    refine ⟨by omega, fun y hy => ?_⟩
    rcases List.mem_cons.1 hy with rfl | hy
    · omega
    · exact h2 y hy

/-- C216, also where sums wrap around: the answer is at least every single element. -/
theorem C216_element {w : Nat} (l : List (BitVec w)) (y : BitVec w) (hy : y ∈ l) : y ≤ maxSumOfU l := by
  cases l with
  | nil => exact absurd hy List.not_mem_nil
  | cons x rest => exact (maxLoopU_ge (x :: rest) x x).2 y hy

/-- C216 does not hold: the greatest sum of the sequence 1 is 1, and the answer is 2. -/
theorem C216_counterexample : ¬ C216_statement := by
  intro h
  have h1 := (h 32 [1#32]).2 (by decide) (by decide)
  rw [isMaxSubU_iff _ _ (by decide)] at h1
  exact absurd h1 (by decide)

example : maxSumOfU [0#32, 5#32, 7#32] = 12#32 ∧ maxSumOfU [5#32, 0#32, 7#32] = 17#32 := by decide
/-- The sum with the first element twice wraps around, and the answer happens to be right. -/
example : maxSumOfU [0x80000000#32] = 0x80000000#32 := by decide

end Verif.Seqs
