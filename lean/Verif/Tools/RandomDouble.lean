import Verif.Common
import Mathlib.Algebra.Order.Field.Power
import Mathlib.Algebra.Order.Ring.Rat
import Mathlib.Data.Finset.Max
import Mathlib.Data.Int.Interval
import Mathlib.Order.Interval.Finset.Basic
import Mathlib.Tactic.Linarith
import Mathlib.Tactic.NormNum
import Mathlib.Tactic.Positivity
import Mathlib.Tactic.Push
import Mathlib.Tactic.Ring

/-!
random.h:45-60 `next_random_double`, and C165: the result lies between the arguments.

`std::uniform_real_distribution` is modelled as in libstdc++: `generate_canonical` makes a number `u` in [0,1) of two outputs of
`mt19937`, and the result is `u * (end - start) + start`.  Each operation returns *some* double nearest to the exact result,
which covers round-to-nearest with any rule for ties.  The doubles are the finite ones, with their limits on the exponent;
infinities and NaN do not occur where the distribution is defined (`start <= end`, `end - start` at most the greatest double).
-/

namespace Verif.RandomDouble

/-- The finite doubles. -/
def Double (y : ℚ) : Prop := ∃ m e : ℤ, |m| < 2 ^ 53 ∧ -1074 ≤ e ∧ e ≤ 971 ∧ y = m * (2 : ℚ) ^ e

/-- The greatest double. -/
def maxDouble : ℚ := (2 ^ 53 - 1) * 2 ^ 971

/-- `y` is a double nearest to `x`. -/
def Rounds (x y : ℚ) : Prop := Double y ∧ ∀ z, Double z → |y - x| ≤ |z - x|

/-- `std::generate_canonical<double, 53>` of two outputs of the generator: `sum = x0 + x1 * 2^32`, divided by `2^64`; the double
before 1 if the sum was rounded up to `2^64`.  The product and the quotient by powers of two are exact. -/
def Canonical (x0 x1 : Nat) (u : ℚ) : Prop :=
  ∃ sum, Rounds ((x0 : ℚ) + x1 * 2 ^ 32) sum ∧ u = if sum / 2 ^ 64 ≥ 1 then 1 - 1 / 2 ^ 53 else sum / 2 ^ 64

/-- random.h:53-60 `next_random_double`, for the outputs `x0`, `x1` of the generator. -/
def NextRandomDouble (start stop : ℚ) (x0 x1 : Nat) (result : Res ℚ) : Prop :=
  if start ≤ stop ∧ stop - start ≤ maxDouble then
    ∃ u width prod r, Canonical x0 x1 u ∧ Rounds (stop - start) width ∧ Rounds (u * width) prod ∧ Rounds (prod + start) r ∧ result = .ok r
  else result = .ub

/-! ### Doubles -/

theorem double_zero : Double 0 := ⟨0, 0, by norm_num, by norm_num, by norm_num, by norm_num⟩

theorem rounds_exact {x y : ℚ} (hx : Double x) (h : Rounds x y) : y = x := by
  have := h.2 x hx
  simp only [sub_self, abs_zero, abs_nonpos_iff] at this
  linarith

theorem rounds_ge {x y a : ℚ} (ha : Double a) (hax : a ≤ x) (h : Rounds x y) : a ≤ y := by
  by_contra hlt
  have := h.2 a ha
  rw [abs_of_nonpos (by linarith), abs_of_nonpos (by linarith)] at this
  linarith

theorem rounds_le {x y a : ℚ} (ha : Double a) (hax : x ≤ a) (h : Rounds x y) : y ≤ a := by
  by_contra hlt
  have := h.2 a ha
  rw [abs_of_nonneg (by linarith), abs_of_nonneg (by linarith)] at this
  linarith

/-- There is a nearest double. -/
theorem rounds_exists (x : ℚ) : ∃ y, Rounds x y := by
  classical
  obtain ⟨s, hs⟩ : ∃ s : Finset ℚ, ∀ y, y ∈ s ↔ Double y := by
    refine ⟨((Finset.Ioo (-(2 ^ 53 : ℤ)) (2 ^ 53)) ×ˢ (Finset.Icc (-1074 : ℤ) 971)).image fun p => (p.1 : ℚ) * (2 : ℚ) ^ p.2, fun y => ?_⟩
    simp only [Finset.mem_image, Finset.mem_product, Finset.mem_Ioo, Finset.mem_Icc, Prod.exists]
    constructor
    · rintro ⟨m, e, ⟨⟨h1, h2⟩, h3, h4⟩, h5⟩
      exact ⟨m, e, abs_lt.2 ⟨h1, h2⟩, h3, h4, h5.symm⟩
    · rintro ⟨m, e, h1, h3, h4, h5⟩
      exact ⟨m, e, ⟨abs_lt.1 h1, h3, h4⟩, h5.symm⟩
  obtain ⟨y, hy, hmin⟩ := Finset.exists_min_image s (fun y => |y - x|) ⟨0, (hs 0).2 double_zero⟩
  exact ⟨y, (hs y).1 hy, fun z hz => hmin z ((hs z).2 hz)⟩

/-- A positive double has a significand of 53 bits or the least exponent. -/
theorem normal {y : ℚ} (hy : Double y) (hpos : 0 < y) :
    ∃ m e : ℤ, 0 < m ∧ m < 2 ^ 53 ∧ -1074 ≤ e ∧ e ≤ 971 ∧ y = m * (2 : ℚ) ^ e ∧ (2 ^ 52 ≤ m ∨ e = -1074) := by
  obtain ⟨m, e, h1, h2, h3, h4⟩ := hy
  have hm : 0 < m := by
    have h2e : (0 : ℚ) < 2 ^ e := by positivity
    rw [h4] at hpos
    have := (pos_iff_pos_of_mul_pos hpos).2 h2e
    exact_mod_cast this
  rw [abs_of_pos hm] at h1
  obtain ⟨n, hn⟩ : ∃ n : Nat, e = -1074 + n := ⟨(e + 1074).toNat, by omega⟩
  induction n generalizing m e with
  | zero => exact ⟨m, e, hm, h1, h2, h3, h4, .inr (by simpa using hn)⟩
  | succ n ih =>
    by_cases h : 2 ^ 52 ≤ m
    · exact ⟨m, e, hm, h1, h2, h3, h4, .inl h⟩
    · refine ih (2 * m) (e - 1) (by omega) (by push_cast at hn; omega) (by omega) ?_ (by omega) (by push_cast at hn; omega)
      rw [h4, zpow_sub_one₀ (by norm_num)]
      push_cast
      ring

/-- A double is a multiple of the least positive double. -/
theorem multiple {y : ℚ} (hy : Double y) : ∃ k : ℤ, y = k * (2 : ℚ) ^ (-1074 : ℤ) := by
  obtain ⟨m, e, -, h2, -, h4⟩ := hy
  obtain ⟨n, hn⟩ : ∃ n : Nat, e = n + -1074 := ⟨(e + 1074).toNat, by omega⟩
  refine ⟨m * 2 ^ n, ?_⟩
  rw [h4, hn, zpow_add₀ (by norm_num), zpow_natCast]
  push_cast
  ring

/-- The greatest double below 1. -/
theorem below_one {u : ℚ} (hu : Double u) (h1 : u < 1) : u ≤ 1 - 1 / 2 ^ 53 := by
  by_cases hpos : 0 < u
  · obtain ⟨m, e, hm, hm2, -, -, h4, -⟩ := normal hu hpos
    have hmq : (m : ℚ) ≤ 2 ^ 53 - 1 := by
      have : m ≤ 2 ^ 53 - 1 := by omega
      exact_mod_cast this
    by_cases he : e ≤ -53
    · have h2e : (2 : ℚ) ^ e ≤ 2 ^ (-53 : ℤ) := zpow_le_zpow_right₀ (by norm_num) he
      rw [h4]
      calc (m : ℚ) * 2 ^ e ≤ (2 ^ 53 - 1) * 2 ^ (-53 : ℤ) := by
            apply mul_le_mul hmq h2e (by positivity) (by norm_num)
        _ = 1 - 1 / 2 ^ 53 := by norm_num
    · by_cases he0 : 0 ≤ e
      · exfalso
        have h2e : (1 : ℚ) ≤ 2 ^ e := one_le_zpow₀ (by norm_num) he0
        have hm1 : (1 : ℚ) ≤ m := by exact_mod_cast hm
        have : (1 : ℚ) ≤ m * 2 ^ e := by nlinarith
        rw [← h4] at this
        linarith
      · obtain ⟨n, hn⟩ : ∃ n : Nat, e = -(n : ℤ) := ⟨(-e).toNat, by omega⟩
        have h2n : (0 : ℚ) < 2 ^ n := by positivity
        have hu2 : u * 2 ^ n = m := by
          rw [h4, hn, zpow_neg, zpow_natCast]
          rw [mul_assoc, inv_mul_cancel₀ (ne_of_gt h2n), mul_one]
        have hlt : m < 2 ^ n := by
          have : (m : ℚ) < 2 ^ n := by rw [← hu2]; nlinarith
          exact_mod_cast this
        have hle : (m : ℚ) ≤ 2 ^ n - 1 := by
          have : m ≤ 2 ^ n - 1 := by omega
          exact_mod_cast this
        have hn53 : (2 : ℚ) ^ n ≤ 2 ^ 53 := pow_le_pow_right₀ (by norm_num) (by omega)
        have : u * 2 ^ n ≤ (1 - 1 / 2 ^ n) * 2 ^ n := by
          rw [hu2, sub_mul, one_mul, div_mul_cancel₀ _ (ne_of_gt h2n)]; exact hle
        have h5 := le_of_mul_le_mul_right this h2n
        have h6 : (1 : ℚ) / 2 ^ 53 ≤ 1 / 2 ^ n := one_div_le_one_div_of_le h2n hn53
        linarith
  · have : (1 : ℚ) / 2 ^ 53 ≤ 1 := by norm_num
    linarith

/-- A product with a number below 1 stays below a rounded difference. -/
theorem prod_le {a b width u prod : ℚ} (ha : Double a) (hb : Double b) (hab : a ≤ b) (hw : Rounds (b - a) width)
    (hu : Double u) (hu0 : 0 ≤ u) (hu1 : u < 1) (hp : Rounds (u * width) prod) : prod ≤ b - a := by
  have hw0 : 0 ≤ width := rounds_ge double_zero (by linarith) hw
  have hpw : prod ≤ width := rounds_le hw.1 (by nlinarith) hp
  by_contra hlt
  have hwp : width = prod := by
    have := hw.2 prod hp.1
    rw [abs_of_nonneg (by linarith), abs_of_nonneg (by linarith)] at this
    linarith
  have hgt : b - a < width := by linarith
  obtain ⟨m, e, hm, hm2, he1, he2, hwe, hn⟩ := normal hw.1 (by linarith)
  have h2e : (0 : ℚ) < 2 ^ e := by positivity
  have hd : Double ((m - 1 : ℤ) * (2 : ℚ) ^ e) := ⟨m - 1, e, by rw [abs_of_nonneg (by omega)]; omega, he1, he2, rfl⟩
  have hub := below_one hu hu1
  have huw : u * width ≤ width - m * 2 ^ e / 2 ^ 53 := by
    have := mul_le_mul_of_nonneg_right hub hw0
    calc u * width ≤ (1 - 1 / 2 ^ 53) * width := this
      _ = width - m * 2 ^ e / 2 ^ 53 := by rw [hwe]; ring
  -- the neighbour below is not nearer
  have hnear := hp.2 _ hd
  rw [← hwp, hwe] at hnear
  rw [hwe] at huw
  push_cast at hnear huw
  have hmid : u * (m * 2 ^ e) ≥ m * 2 ^ e - 2 ^ e / 2 := by
    by_contra hc
    rw [not_le] at hc
    rw [abs_of_nonneg (by nlinarith)] at hnear
    rcases le_total 0 (((m : ℚ) - 1) * 2 ^ e - u * (m * 2 ^ e)) with h | h
    · rw [abs_of_nonneg h] at hnear; linarith
    · rw [abs_of_nonpos h] at hnear; linarith
  by_cases hmin : e = -1074
  · -- the difference is exact
    obtain ⟨i, hi⟩ := multiple ha
    obtain ⟨j, hj⟩ := multiple hb
    have hij : b - a = ((j - i : ℤ) : ℚ) * (2 : ℚ) ^ (-1074 : ℤ) := by rw [hi, hj]; push_cast; ring
    have h2 : (0 : ℚ) < 2 ^ (-1074 : ℤ) := by positivity
    have hlt2 : j - i < m := by
      have h3 : ((j - i : ℤ) : ℚ) * (2 : ℚ) ^ (-1074 : ℤ) < m * 2 ^ (-1074 : ℤ) := by rw [← hij, ← hmin, ← hwe]; exact hgt
      exact_mod_cast lt_of_mul_lt_mul_right h3 h2.le
    have hge2 : 0 ≤ j - i := by
      have h3 : (0 : ℚ) * (2 : ℚ) ^ (-1074 : ℤ) ≤ ((j - i : ℤ) : ℚ) * 2 ^ (-1074 : ℤ) := by rw [← hij, zero_mul]; linarith
      exact_mod_cast le_of_mul_le_mul_right h3 h2
    have hdd : Double (b - a) := ⟨j - i, -1074, by rw [abs_of_nonneg hge2]; omega, by norm_num, by norm_num, hij⟩
    have := rounds_exact hdd hw
    linarith
  · have h52 : 2 ^ 52 ≤ m := hn.resolve_right hmin
    have hm52 : m = 2 ^ 52 := by
      have h1 : (m : ℚ) * 2 ^ e / 2 ^ 53 ≤ 2 ^ e / 2 := by linarith
      have h2 : (m : ℚ) ≤ 2 ^ 52 := by
        rw [div_le_div_iff₀ (by positivity) (by positivity)] at h1
        have h3 : (2 : ℚ) ^ e * (m * 2) ≤ 2 ^ e * 2 ^ 53 := by linarith
        have h4 := le_of_mul_le_mul_left h3 h2e
        linarith
      have h3 : m ≤ 2 ^ 52 := by exact_mod_cast h2
      omega
    have hmidd : Double (((2 ^ 53 - 1 : ℤ) : ℚ) * (2 : ℚ) ^ (e - 1)) :=
      ⟨2 ^ 53 - 1, e - 1, by norm_num, by omega, by omega, rfl⟩
    have hval : ((2 ^ 53 - 1 : ℤ) : ℚ) * (2 : ℚ) ^ (e - 1) = m * 2 ^ e - 2 ^ e / 2 := by
      rw [zpow_sub_one₀ (by norm_num), hm52]
      push_cast
      ring
    have hux : u * (m * 2 ^ e) = m * 2 ^ e - 2 ^ e / 2 := by
      apply le_antisymm _ hmid
      have : (m : ℚ) * 2 ^ e / 2 ^ 53 = 2 ^ e / 2 := by rw [hm52]; push_cast; ring
      linarith
    rw [hwe, hux, ← hval] at hp
    have h5 := rounds_exact hmidd hp
    rw [hval, ← hwp, hwe] at h5
    linarith

/-- `generate_canonical` returns a double in [0,1). -/
theorem canonical_range {x0 x1 : Nat} (h0 : x0 < 2 ^ 32) (h1 : x1 < 2 ^ 32) {u : ℚ} (h : Canonical x0 x1 u) : Double u ∧ 0 ≤ u ∧ u < 1 := by
  obtain ⟨sum, hs, rfl⟩ := h
  have hn0 : (0 : ℚ) ≤ (x0 : ℚ) + x1 * 2 ^ 32 := by positivity
  have hs0 : 0 ≤ sum := rounds_ge double_zero hn0 hs
  by_cases hge : sum / 2 ^ 64 ≥ 1
  · rw [if_pos hge]
    exact ⟨⟨2 ^ 53 - 1, -53, by norm_num, by norm_num, by norm_num, by norm_num⟩, by norm_num, by norm_num⟩
  · rw [if_neg hge]
    refine ⟨?_, by positivity, by linarith⟩
    rcases hs0.eq_or_lt with hz | hpos
    · rw [← hz, zero_div]; exact double_zero
    · have hone : Double 1 := ⟨1, 0, by norm_num, by norm_num, by norm_num, by norm_num⟩
      have hs1 : 1 ≤ sum := by
        refine rounds_ge hone ?_ hs
        by_contra hlt
        have h2 : x0 + x1 * 2 ^ 32 < 1 := by
          have : (x0 : ℚ) + x1 * 2 ^ 32 < 1 := by linarith
          exact_mod_cast this
        have h3 : x0 = 0 := by omega
        have h4 : x1 = 0 := by omega
        rw [h3, h4] at hs
        have := rounds_exact (by simpa using double_zero) hs
        simp at this
        linarith
      obtain ⟨m, e, hm, hm2, he1, he2, hwe, -⟩ := normal hs.1 hpos
      refine ⟨m, e - 64, by rw [abs_of_pos hm]; exact hm2, ?_, by omega, ?_⟩
      · by_contra hc
        have he : e ≤ -53 := by omega
        have h2e : (2 : ℚ) ^ e ≤ 2 ^ (-53 : ℤ) := zpow_le_zpow_right₀ (by norm_num) he
        have hmq : (m : ℚ) < 2 ^ 53 := by exact_mod_cast hm2
        have h2e0 : (0 : ℚ) < 2 ^ e := by positivity
        have : (m : ℚ) * 2 ^ e < 1 := by
          calc (m : ℚ) * 2 ^ e < 2 ^ 53 * 2 ^ e := by nlinarith
            _ ≤ 2 ^ 53 * 2 ^ (-53 : ℤ) := by nlinarith
            _ = 1 := by norm_num
        linarith
      · rw [hwe, zpow_sub₀ (by norm_num)]
        norm_num
        ring

theorem max_ge : 3 ≤ maxDouble := by
  have h : (1 : ℚ) ≤ 2 ^ 971 := one_le_pow₀ (by norm_num)
  calc (3 : ℚ) ≤ (2 ^ 53 - 1) * 1 := by norm_num
    _ ≤ maxDouble := by unfold maxDouble; exact mul_le_mul_of_nonneg_left h (by norm_num)

/-! ### C165 -/

/-- The full statement: for all doubles `start <= end` the result lies between them. -/
def C165_statement : Prop :=
  ∀ a b : ℚ, Double a → Double b → a ≤ b → ∀ x0 x1 : Nat, x0 < 2 ^ 32 → x1 < 2 ^ 32 → ∀ res, NextRandomDouble a b x0 x1 res →
    ∃ r, res = .ok r ∧ Double r ∧ a ≤ r ∧ r ≤ b

/-- Where the distribution is defined (`start <= end`, and the width is at most the greatest double) the result lies between the
arguments, both inclusive, in spite of the roundings. For greater widths the full statement is false (`C165_counterexample`). -/
theorem C165_in_range_partial (a b : ℚ) (ha : Double a) (hb : Double b) (hab : a ≤ b) (hmax : b - a ≤ maxDouble) (x0 x1 : Nat)
    (h0 : x0 < 2 ^ 32) (h1 : x1 < 2 ^ 32) (res : Res ℚ) (h : NextRandomDouble a b x0 x1 res) :
    ∃ r, res = .ok r ∧ Double r ∧ a ≤ r ∧ r ≤ b := by
  rw [NextRandomDouble, if_pos ⟨hab, hmax⟩] at h
  obtain ⟨u, width, prod, r, hc, hw, hp, hr, rfl⟩ := h
  obtain ⟨hu, hu0, hu1⟩ := canonical_range h0 h1 hc
  have hw0 : 0 ≤ width := rounds_ge double_zero (by linarith) hw
  have hp0 : 0 ≤ prod := rounds_ge double_zero (by positivity) hp
  have hpb := prod_le ha hb hab hw hu hu0 hu1 hp
  exact ⟨r, rfl, hr.1, rounds_ge ha (by linarith) hr, rounds_le hb (by linarith) hr⟩

/-- There is a result for all arguments and outputs of the generator. -/
theorem C165_total (a b : ℚ) (x0 x1 : Nat) : ∃ res, NextRandomDouble a b x0 x1 res := by
  unfold NextRandomDouble
  split
  · obtain ⟨sum, hs⟩ := rounds_exists ((x0 : ℚ) + x1 * 2 ^ 32)
    obtain ⟨width, hw⟩ := rounds_exists (b - a)
    obtain ⟨prod, hp⟩ := rounds_exists ((if sum / 2 ^ 64 ≥ 1 then 1 - 1 / 2 ^ 53 else sum / 2 ^ 64) * width)
    obtain ⟨r, hr⟩ := rounds_exists (prod + a)
    exact ⟨_, _, width, prod, r, ⟨sum, hs, rfl⟩, hw, hp, hr, rfl⟩
  · exact ⟨_, rfl⟩

/-- `start` is a possible result. -/
theorem C165_start (a b : ℚ) (ha : Double a) (hab : a ≤ b) (hmax : b - a ≤ maxDouble) (res : Res ℚ) (h : NextRandomDouble a b 0 0 res) :
    res = .ok a := by
  rw [NextRandomDouble, if_pos ⟨hab, hmax⟩] at h
  obtain ⟨u, width, prod, r, ⟨sum, hs, hu⟩, hw, hp, hr, rfl⟩ := h
  have hs0 : sum = 0 := by simpa using rounds_exact (by simpa using double_zero) hs
  rw [hs0] at hu
  norm_num at hu
  rw [hu, zero_mul] at hp
  rw [rounds_exact double_zero hp, zero_add] at hr
  rw [rounds_exact ha hr]

/-- The greatest outputs of the generator give the greatest number below 1. -/
theorem canonical_greatest {u : ℚ} (h : Canonical (2 ^ 32 - 1) (2 ^ 32 - 1) u) : u = 1 - 1 / 2 ^ 53 := by
  obtain ⟨sum, hs, rfl⟩ := h
  have hd : Double ((2 : ℚ) ^ 64) := ⟨1, 64, by norm_num, by norm_num, by norm_num, by norm_num⟩
  have hx : (((2 ^ 32 - 1 : Nat) : ℚ) + ((2 ^ 32 - 1 : Nat) : ℚ) * 2 ^ 32) = 2 ^ 64 - 1 := by norm_num
  rw [hx] at hs
  have hle := rounds_le hd (by norm_num) hs
  have hge : (2 : ℚ) ^ 64 ≤ sum := by
    have hnear := hs.2 _ hd
    norm_num at hnear
    rw [abs_le] at hnear
    have hpos : 0 < sum := by linarith
    obtain ⟨m, e, hm, hm2, -, -, hwe, -⟩ := normal hs.1 hpos
    have hmq : (m : ℚ) < 2 ^ 53 := by exact_mod_cast hm2
    have he : 11 ≤ e := by
      by_contra hc
      have h2e : (2 : ℚ) ^ e ≤ 2 ^ (10 : ℤ) := zpow_le_zpow_right₀ (by norm_num) (by omega)
      have h2e0 : (0 : ℚ) < 2 ^ e := by positivity
      have : (m : ℚ) * 2 ^ e < 2 ^ 53 * 2 ^ (10 : ℤ) := by
        calc (m : ℚ) * 2 ^ e < 2 ^ 53 * 2 ^ e := by nlinarith
          _ ≤ 2 ^ 53 * 2 ^ (10 : ℤ) := by nlinarith
      norm_num at this
      linarith
    obtain ⟨n, hn⟩ : ∃ n : Nat, e = n + 11 := ⟨(e - 11).toNat, by omega⟩
    have hint : sum = ((m * 2 ^ n * 2048 : ℤ) : ℚ) := by
      rw [hwe, hn, zpow_add₀ (by norm_num), zpow_natCast]
      push_cast
      norm_num
      ring
    have h3 : (18446744073709551614 : ℤ) ≤ m * 2 ^ n * 2048 := by
      have : (18446744073709551614 : ℚ) ≤ ((m * 2 ^ n * 2048 : ℤ) : ℚ) := by rw [← hint]; linarith
      exact_mod_cast this
    have h4 : (18446744073709551616 : ℤ) ≤ m * 2 ^ n * 2048 := by omega
    rw [hint]
    norm_num
    exact_mod_cast h4
  rw [if_pos]
  rw [ge_iff_le, le_div_iff₀ (by norm_num)]
  linarith

/-- `end` is a possible result, although the distribution promises numbers below it: the sum is rounded. -/
theorem C165_end (res : Res ℚ) (h : NextRandomDouble 1 (1 + 1 / 2 ^ 52) (2 ^ 32 - 1) (2 ^ 32 - 1) res) : res = .ok (1 + 1 / 2 ^ 52) := by
  have hmax : (1 + 1 / 2 ^ 52 : ℚ) - 1 ≤ maxDouble := le_trans (by norm_num) max_ge
  rw [NextRandomDouble, if_pos ⟨by norm_num, hmax⟩] at h
  obtain ⟨u, width, prod, r, hc, hw, hp, hr, rfl⟩ := h
  have hu := canonical_greatest hc
  have hwd : Double ((1 + 1 / 2 ^ 52 : ℚ) - 1) := ⟨1, -52, by norm_num, by norm_num, by norm_num, by norm_num⟩
  have hwe := rounds_exact hwd hw
  have hpd : Double (u * width) := ⟨2 ^ 53 - 1, -105, by norm_num, by norm_num, by norm_num, by rw [hu, hwe]; norm_num⟩
  have hpe := rounds_exact hpd hp
  have hb : Double (1 + 1 / 2 ^ 52 : ℚ) := ⟨2 ^ 52 + 1, -52, by norm_num, by norm_num, by norm_num, by norm_num⟩
  rw [hpe, hu, hwe] at hr
  have hle := rounds_le hb (by norm_num) hr
  have hnear := hr.2 _ hb
  rw [abs_of_nonneg (a := (1 + 1 / 2 ^ 52 : ℚ) - _) (by norm_num), abs_le] at hnear
  have hgt : 1 < r := by norm_num at hnear; linarith
  obtain ⟨m, e, hm, hm2, -, -, hre, hn⟩ := normal hr.1 (by linarith)
  have hmq : (m : ℚ) < 2 ^ 53 := by exact_mod_cast hm2
  have he : -52 ≤ e := by
    by_contra hc
    have h2e : (2 : ℚ) ^ e ≤ 2 ^ (-53 : ℤ) := zpow_le_zpow_right₀ (by norm_num) (by omega)
    have h2e0 : (0 : ℚ) < 2 ^ e := by positivity
    have : (m : ℚ) * 2 ^ e < 2 ^ 53 * 2 ^ (-53 : ℤ) := by
      calc (m : ℚ) * 2 ^ e < 2 ^ 53 * 2 ^ e := by nlinarith
        _ ≤ 2 ^ 53 * 2 ^ (-53 : ℤ) := by nlinarith
    norm_num at this
    linarith
  obtain ⟨n, hn2⟩ : ∃ n : Nat, e = n + -52 := ⟨(e + 52).toNat, by omega⟩
  have hint : r * 2 ^ 52 = ((m * 2 ^ n : ℤ) : ℚ) := by
    rw [hre, hn2, zpow_add₀ (by norm_num), zpow_natCast]
    push_cast
    norm_num
    ring
  have h3 : (2 ^ 52 + 1 : ℤ) ≤ m * 2 ^ n := by
    have h4 : ((2 ^ 52 : ℤ) : ℚ) < ((m * 2 ^ n : ℤ) : ℚ) := by rw [← hint]; push_cast; linarith
    have h5 : (2 ^ 52 : ℤ) < m * 2 ^ n := by exact_mod_cast h4
    omega
  have h6 : ((2 ^ 52 + 1 : ℤ) : ℚ) ≤ r * 2 ^ 52 := by rw [hint]; exact_mod_cast h3
  have h7 : r = 1 + 1 / 2 ^ 52 := by
    apply le_antisymm hle
    norm_num at h6 ⊢
    linarith
  rw [h7]

/-- The distribution is undefined for wider ranges: `next_random_double(-max, max)`. -/
theorem C165_counterexample : ¬ C165_statement := by
  intro h
  have hd : Double maxDouble := ⟨2 ^ 53 - 1, 971, by norm_num, by norm_num, by norm_num, by norm_num [maxDouble]⟩
  have hd' : Double (-maxDouble) := ⟨-(2 ^ 53 - 1), 971, by norm_num, by norm_num, by norm_num, by norm_num [maxDouble]⟩
  have hpos : (0 : ℚ) < maxDouble := by norm_num [maxDouble]
  obtain ⟨r, hr, -⟩ := h _ _ hd' hd (by linarith) 0 0 (by norm_num) (by norm_num) .ub (by
    rw [NextRandomDouble, if_neg]
    rintro ⟨-, h2⟩
    linarith)
  cases hr

/-- Half of [-1, 2], exactly: the first output only fills lower bits. -/
example (res : Res ℚ) (h : NextRandomDouble (-1) 2 0 (2 ^ 31) res) : res = .ok (1 / 2) := by
  have hmax : (2 : ℚ) - -1 ≤ maxDouble := le_trans (by norm_num) max_ge
  rw [NextRandomDouble, if_pos ⟨by norm_num, hmax⟩] at h
  obtain ⟨u, width, prod, r, ⟨sum, hs, hu⟩, hw, hp, hr, rfl⟩ := h
  have hse := rounds_exact ⟨1, 63, by norm_num, by norm_num, by norm_num, by norm_num⟩ hs
  rw [hse] at hu
  norm_num at hu
  have hwe := rounds_exact ⟨3, 0, by norm_num, by norm_num, by norm_num, by norm_num⟩ hw
  rw [hu, hwe] at hp
  have hpe := rounds_exact ⟨3, -1, by norm_num, by norm_num, by norm_num, by norm_num⟩ hp
  rw [hpe] at hr
  have hre := rounds_exact ⟨1, -1, by norm_num, by norm_num, by norm_num, by norm_num⟩ hr
  rw [hre]
  norm_num

end Verif.RandomDouble
