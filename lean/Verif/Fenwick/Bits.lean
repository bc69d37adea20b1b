import Verif.Common

/-!
Lowest set bit, as computed by `index & (-index)` on 64-bit `size_t`.
-/

namespace Verif.Fenwick

/-- structures/fenwick_tree.h:205-208 `lsb`: `index & (-index)`; `-index` on `size_t` is `2^64 - index` mod `2^64`. -/
def lsb (index : Nat) : Nat := index &&& ((W - index) % W)

/-- structures/fenwick_tree.h:215-218 `next_query` (never wraps: `lsb index ≤ index`). -/
def nextQuery (index : Nat) : Nat := index - lsb index

/-- structures/fenwick_tree.h:225-228 `next_update`: `size_t` addition wraps modulo `2^64`. -/
def nextUpdate (index : Nat) : Nat := (index + lsb index) % W

/-- Mathematical lowest set bit, by recursion on the binary digits (0 for 0). -/
def low (n : Nat) : Nat :=
  if n = 0 then 0 else if n % 2 = 1 then 1 else 2 * low (n / 2)
termination_by n

theorem low_zero : low 0 = 0 := by unfold low; simp

theorem low_odd (m : Nat) : low (2 * m + 1) = 1 := by
  unfold low; simp

theorem low_even (m : Nat) : low (2 * m) = 2 * low m := by
  rcases Nat.eq_zero_or_pos m with h | h
  · subst h; simp [low_zero]
  · rw [low]
    have h1 : ¬ 2 * m = 0 := by omega
    have h3 : 2 * m / 2 = m := by omega
    simp [h1, h3]

theorem parity (n : Nat) : (∃ m, n = 2 * m) ∨ (∃ m, n = 2 * m + 1) := by
  rcases Nat.mod_two_eq_zero_or_one n with h | h
  · exact .inl ⟨n / 2, by omega⟩
  · exact .inr ⟨n / 2, by omega⟩

theorem land_two_mul (a b : Nat) : (2 * a) &&& (2 * b) = 2 * (a &&& b) := by
  apply Nat.eq_of_testBit_eq
  intro i
  cases i with
  | zero => simp
  | succ i => rw [Nat.testBit_and]; simp [Nat.testBit_succ]

theorem land_odd_odd (a b : Nat) : (2 * a + 1) &&& (2 * b + 1) = 2 * (a &&& b) + 1 := by
  apply Nat.eq_of_testBit_eq
  intro i
  cases i with
  | zero => simp
  | succ i =>
    have h1 : (2 * a + 1) / 2 = a := by omega
    have h2 : (2 * b + 1) / 2 = b := by omega
    have h3 : (2 * (a &&& b) + 1) / 2 = a &&& b := by omega
    rw [Nat.testBit_and]; simp [Nat.testBit_succ, h1, h2, h3]

theorem land_even_odd (a b : Nat) : (2 * a) &&& (2 * b + 1) = 2 * (a &&& b) := by
  apply Nat.eq_of_testBit_eq
  intro i
  cases i with
  | zero => simp
  | succ i =>
    have h2 : (2 * b + 1) / 2 = b := by omega
    rw [Nat.testBit_and]; simp [Nat.testBit_succ, h2]

theorem land_compl (w m : Nat) (h : m < 2 ^ w) : m &&& (2 ^ w - 1 - m) = 0 := by
  induction w generalizing m with
  | zero => simp at h; simp [h]
  | succ w ih =>
    have hp : 2 ^ (w + 1) = 2 * 2 ^ w := by rw [Nat.pow_succ]; omega
    have hw : 0 < 2 ^ w := Nat.two_pow_pos w
    rcases parity m with ⟨k, hk⟩ | ⟨k, hk⟩
    · have := ih k (by omega)
      have e : 2 ^ (w + 1) - 1 - m = 2 * (2 ^ w - 1 - k) + 1 := by omega
      rw [e, hk, land_even_odd, this]
    · have := ih k (by omega)
      have e : 2 ^ (w + 1) - 1 - m = 2 * (2 ^ w - 1 - k) := by omega
      rw [e, hk, Nat.and_comm, land_even_odd, Nat.and_comm, this]

theorem land_neg (w i : Nat) (hi : 0 < i) (h : i < 2 ^ w) : i &&& (2 ^ w - i) = low i := by
  induction w generalizing i with
  | zero => simp at h; omega
  | succ w ih =>
    have hp : 2 ^ (w + 1) = 2 * 2 ^ w := by rw [Nat.pow_succ]; omega
    rcases parity i with ⟨k, hk⟩ | ⟨k, hk⟩
    · have := ih k (by omega) (by omega)
      have e : 2 ^ (w + 1) - i = 2 * (2 ^ w - k) := by omega
      rw [e, hk, land_two_mul, this, low_even]
    · have := land_compl w k (by omega)
      have e : 2 ^ (w + 1) - i = 2 * (2 ^ w - 1 - k) + 1 := by omega
      rw [e, hk, land_odd_odd, this, low_odd]

/-- The machine expression computes the lowest set bit. -/
theorem lsb_eq_low (i : Nat) (h : i < W) : lsb i = low i := by
  unfold lsb
  rcases Nat.eq_zero_or_pos i with hi | hi
  · subst hi; simp [low_zero]
  · rw [Nat.mod_eq_of_lt (by omega)]
    exact land_neg 64 i hi h

theorem low_pos (i : Nat) (h : 0 < i) : 0 < low i := by
  induction i using Nat.strongRecOn with
  | _ i ih =>
    rcases parity i with ⟨k, hk⟩ | ⟨k, hk⟩
    · subst hk; rw [low_even]; have := ih k (by omega) (by omega); omega
    · subst hk; rw [low_odd]; omega

theorem low_le (i : Nat) : low i ≤ i := by
  induction i using Nat.strongRecOn with
  | _ i ih =>
    rcases parity i with ⟨k, hk⟩ | ⟨k, hk⟩
    · subst hk; rw [low_even]
      rcases Nat.eq_zero_or_pos k with h | h
      · subst h; simp [low_zero]
      · have := ih k (by omega); omega
    · subst hk; rw [low_odd]; omega

/-- Positions strictly between `p` and its update successor do not cover `p`. -/
theorem low_gap (p : Nat) : ∀ i, 0 < p → p < i → i < p + low p → p ≤ i - low i := by
  induction p using Nat.strongRecOn with
  | _ p ih =>
    intro i hp h1 h2
    rcases parity p with ⟨k, hk⟩ | ⟨k, hk⟩
    · subst hk; rw [low_even] at h2
      rcases parity i with ⟨j, hj⟩ | ⟨j, hj⟩
      · subst hj; rw [low_even]
        have := ih k (by omega) j (by omega) (by omega) (by omega); omega
      · subst hj; rw [low_odd]; omega
    · subst hk; rw [low_odd] at h2; omega

/-- From the update successor of `p` on, covering `p` is the same as covering the successor. -/
theorem low_cover (p : Nat) : ∀ i, 0 < p → p + low p ≤ i → i - low i < p + low p → i - low i < p := by
  induction p using Nat.strongRecOn with
  | _ p ih =>
    intro i hp h1 h2
    rcases parity p with ⟨k, hk⟩ | ⟨k, hk⟩
    · subst hk; rw [low_even] at h1 h2
      rcases parity i with ⟨j, hj⟩ | ⟨j, hj⟩
      · subst hj; rw [low_even] at h2 ⊢
        have := ih k (by omega) j (by omega) (by omega) (by omega); omega
      · subst hj; rw [low_odd] at h2 ⊢; omega
    · subst hk; rw [low_odd] at h1 h2
      rcases parity i with ⟨j, hj⟩ | ⟨j, hj⟩
      · subst hj; rw [low_even] at h2 ⊢; omega
      · subst hj; rw [low_odd] at h2 ⊢; omega

/-- `i + lowest set bit` never exceeds a power of two above `i`. -/
theorem add_low_le (w i : Nat) (h : i < 2 ^ w) : i + low i ≤ 2 ^ w := by
  induction w generalizing i with
  | zero => simp at h; subst h; simp [low_zero]
  | succ w ih =>
    have hp : 2 ^ (w + 1) = 2 * 2 ^ w := by rw [Nat.pow_succ]; omega
    rcases parity i with ⟨k, hk⟩ | ⟨k, hk⟩
    · subst hk; rw [low_even]; have := ih k (by omega); omega
    · subst hk; rw [low_odd]; omega

/-- `next_update` either grows or wraps to exactly 0. -/
theorem nextUpdate_cases (i : Nat) (h0 : 0 < i) (h : i < W) :
    (nextUpdate i = i + low i ∧ i < nextUpdate i) ∨ (nextUpdate i = 0 ∧ i + low i = W) := by
  have h1 := add_low_le 64 i h
  have h2 := low_pos i h0
  unfold nextUpdate; rw [lsb_eq_low i h]
  rcases Nat.lt_or_ge (i + low i) W with h3 | h3
  · left; rw [Nat.mod_eq_of_lt h3]; omega
  · right
    have : i + low i = W := by unfold W at *; omega
    rw [this]; simp

theorem nextQuery_lt (i : Nat) (h0 : 0 < i) (h : i < W) : nextQuery i < i := by
  unfold nextQuery; rw [lsb_eq_low i h]
  have := low_pos i h0; omega

theorem nextQuery_le (i : Nat) : nextQuery i ≤ i := by unfold nextQuery; omega

end Verif.Fenwick
