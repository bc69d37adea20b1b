import Verif.Tools.PropsMath
import Mathlib.Analysis.Real.Sqrt
import Mathlib.Tactic.Linarith
import Mathlib.Tactic.NormNum
import Mathlib.Tactic.Positivity

/-
C79 with the floating-point square root of the code.  divisors.h:19 computes
`static_cast<uint64_t>(std::sqrt(n))` for a `uint64_t n`: the argument is converted to double, the root is taken in double,
and the result is truncated.  The doubles are modelled as the real numbers `m * 2^e` with `|m| < 2^53`; the range of the
exponent is left out, since every number met here lies between 1 and 2^64 or is 0.  Conversion and root each return *some*
nearest double, which covers the round-to-nearest mode of IEEE 754 with any rule for ties.
-/

namespace Verif.Tools

/-- Doubles without limits on the exponent. -/
def IsDouble (y : ℝ) : Prop := ∃ m e : ℤ, |m| < 2 ^ 53 ∧ y = m * (2 : ℝ) ^ e

/-- `y` is a double nearest to `x`. -/
def Nearest (x y : ℝ) : Prop := IsDouble y ∧ ∀ z, IsDouble z → |y - x| ≤ |z - x|

/-- divisors.h:19: `s` is a possible value of `static_cast<uint64_t>(std::sqrt(n))`. -/
def SqrtCast (n s : Nat) : Prop := ∃ x y : ℝ, Nearest n x ∧ Nearest (Real.sqrt x) y ∧ s = ⌊y⌋₊

theorem isDouble_nat {m : Nat} (k : Nat) (h : m < 2 ^ 53) : IsDouble ((m * 2 ^ k : Nat) : ℝ) := by
  refine ⟨m, k, ?_, by push_cast; simp⟩
  rw [abs_of_nonneg (by positivity)]
  exact_mod_cast h

theorem nearest_exact {x y : ℝ} (hx : IsDouble x) (h : Nearest x y) : y = x := by
  have := h.2 x hx
  simp only [sub_self, abs_zero, abs_nonpos_iff] at this
  linarith

theorem nearest_ge {x y a : ℝ} (ha : IsDouble a) (hax : a ≤ x) (h : Nearest x y) : a ≤ y := by
  by_contra hlt
  have := h.2 a ha
  rw [abs_of_nonpos (by linarith), abs_of_nonpos (by linarith)] at this
  linarith

theorem nearest_le {x y a : ℝ} (ha : IsDouble a) (hax : x ≤ a) (h : Nearest x y) : y ≤ a := by
  by_contra hlt
  have := h.2 a ha
  rw [abs_of_nonneg (by linarith), abs_of_nonneg (by linarith)] at this
  linarith

/-- A number below `2^(53+k)` is within `2^k / 2` of a double. -/
theorem nearest_err {n k : Nat} {x : ℝ} (hn : n < 2 ^ (53 + k)) (h : Nearest n x) : 2 * |x - n| ≤ 2 ^ k := by
  have hpow : (2 : Nat) ^ (53 + k) = 2 ^ 53 * 2 ^ k := Nat.pow_add ..
  have hq : n / 2 ^ k < 2 ^ 53 := by
    rw [Nat.div_lt_iff_lt_mul (by positivity)]; omega
  have hdm := Nat.div_add_mod n (2 ^ k)
  have hml := Nat.mod_lt n (show 2 ^ k > 0 by positivity)
  generalize hqq : n / 2 ^ k = q at *
  have hlo : IsDouble ((q * 2 ^ k : Nat) : ℝ) := isDouble_nat k hq
  have hhi : IsDouble (((q + 1) * 2 ^ k : Nat) : ℝ) := by
    by_cases hc : q + 1 < 2 ^ 53
    · exact isDouble_nat k hc
    · have : q + 1 = 2 ^ 53 := by omega
      rw [this]
      have := isDouble_nat (m := 1) (53 + k) (by norm_num)
      rwa [Nat.one_mul, Nat.pow_add] at this
  have h1 := h.2 _ hlo
  have h2 := h.2 _ hhi
  have e1 : ((q * 2 ^ k : Nat) : ℝ) ≤ n := by exact_mod_cast (by rw [Nat.mul_comm]; omega : q * 2 ^ k ≤ n)
  have e2 : (n : ℝ) ≤ (((q + 1) * 2 ^ k : Nat) : ℝ) := by
    exact_mod_cast (by rw [Nat.add_mul, Nat.mul_comm q]; omega : n ≤ (q + 1) * 2 ^ k)
  rw [abs_of_nonpos (a := ((q * 2 ^ k : Nat) : ℝ) - n) (by linarith)] at h1
  rw [abs_of_nonneg (a := (((q + 1) * 2 ^ k : Nat) : ℝ) - n) (by linarith)] at h2
  push_cast at h1 h2
  linarith

/-- Between two powers of two the doubles are `2^(e-52)` apart. -/
theorem double_gap {y : ℝ} {r e : Nat} (he : e ≤ 52) (hy : IsDouble y) (h1 : (2 : ℝ) ^ e ≤ y) (h2 : y < r) :
    y + 2 ^ e / 2 ^ 52 ≤ r := by
  obtain ⟨m, t, hm, rfl⟩ := hy
  have hm' : (m : ℝ) < 2 ^ (53 : ℤ) := by exact_mod_cast lt_of_le_of_lt (le_abs_self m) hm
  have hpos : (0 : ℝ) < 2 ^ t := zpow_pos (by norm_num) t
  have hlt : (2 : ℝ) ^ (e : ℤ) < 2 ^ (53 + t) := by
    rw [zpow_add₀ (by norm_num), zpow_natCast]
    exact lt_of_le_of_lt h1 (mul_lt_mul_of_pos_right hm' hpos)
  have hexp : (e : ℤ) < 53 + t := (zpow_lt_zpow_iff_right₀ (by norm_num)).mp hlt
  obtain ⟨j, hj⟩ := Int.eq_ofNat_of_zero_le (show 0 ≤ t - (e - 52) by omega)
  have ht : t = j + e - 52 := by omega
  obtain ⟨i, hi⟩ := Nat.exists_eq_add_of_le he
  have hu : (2 : ℝ) ^ e * 2 ^ i = 2 ^ 52 := by rw [← pow_add, hi]
  have hyv : (2 : ℝ) ^ t * 2 ^ 52 = 2 ^ j * 2 ^ e := by
    rw [ht, ← zpow_natCast 2 52, ← zpow_natCast 2 j, ← zpow_natCast 2 e, ← zpow_add₀ (by norm_num), ← zpow_add₀ (by norm_num)]
    congr 1; push_cast; ring
  have hint : m * 2 ^ j < (r * 2 ^ i : ℤ) := by
    have h3 : (m : ℝ) * 2 ^ j * 2 ^ e < r * 2 ^ i * 2 ^ e := by
      calc (m : ℝ) * 2 ^ j * 2 ^ e = m * 2 ^ t * 2 ^ 52 := by rw [mul_assoc, ← hyv]; ring
        _ < r * 2 ^ 52 := mul_lt_mul_of_pos_right h2 (by positivity)
        _ = r * 2 ^ i * 2 ^ e := by rw [← hu]; ring
    exact_mod_cast lt_of_mul_lt_mul_right h3 (by positivity)
  have hint' : (m : ℝ) * 2 ^ j + 1 ≤ r * 2 ^ i := by exact_mod_cast hint
  have h4 : ((m : ℝ) * 2 ^ j + 1) * 2 ^ e ≤ r * 2 ^ i * 2 ^ e := mul_le_mul_of_nonneg_right hint' (by positivity)
  have h5 : ((m : ℝ) * 2 ^ t + 2 ^ e / 2 ^ 52) * 2 ^ 52 ≤ r * 2 ^ 52 := by
    calc ((m : ℝ) * 2 ^ t + 2 ^ e / 2 ^ 52) * 2 ^ 52 = m * (2 ^ t * 2 ^ 52) + 2 ^ e := by ring
      _ = ((m : ℝ) * 2 ^ j + 1) * 2 ^ e := by rw [hyv]; ring
      _ ≤ r * 2 ^ i * 2 ^ e := h4
      _ = r * 2 ^ 52 := by rw [← hu]; ring
  exact le_of_mul_le_mul_right h5 (by positivity)

theorem sqrtCast_ge {n : Nat} {x y : ℝ} (hW : n < 2 ^ 64) (hn : 0 < n) (hx : Nearest n x) (hy : Nearest (Real.sqrt x) y) :
    (Nat.sqrt n : ℝ) ≤ y := by
  generalize hr : Nat.sqrt n = r
  have hrn : r * r ≤ n := hr ▸ Nat.sqrt_le n
  have hnr : n < (r + 1) * (r + 1) := hr ▸ Nat.lt_succ_sqrt n
  have hr1 : 0 < r := by rw [← hr]; exact Nat.sqrt_pos.mpr hn
  have hr2 : r < 2 ^ 32 := by
    by_contra hc
    have : 2 ^ 32 * 2 ^ 32 ≤ r * r := Nat.mul_le_mul (by omega) (by omega)
    omega
  have hrD : IsDouble (r : ℝ) := by simpa using isDouble_nat (m := r) 0 (by omega)
  have hx0 : 0 ≤ x := nearest_ge ⟨0, 0, by norm_num, by simp⟩ (by positivity) hx
  by_cases hle : (r : ℝ) ≤ Real.sqrt x
  · exact nearest_ge hrD hle hy
  · have hlt : Real.sqrt x < r := lt_of_not_ge hle
    have hxr : x < r * r := by
      have := (Real.sqrt_lt hx0 (by positivity)).mp hlt
      rwa [pow_two] at this
    have hxn : x < n := lt_of_lt_of_le hxr (by exact_mod_cast hrn)
    have hbig : 2 ^ 53 ≤ n := by
      by_contra hc
      have hnD : IsDouble (n : ℝ) := by simpa using isDouble_nat (m := n) 0 (by omega)
      have := nearest_exact hnD hx
      linarith
    obtain ⟨e, he1, he2⟩ : ∃ e, 2 ^ e ≤ r ∧ r < 2 ^ (e + 1) :=
      ⟨Nat.log2 r, Nat.log2_self_le (by omega), Nat.lt_log2_self⟩
    have hne : n < 2 ^ (e + 1) * 2 ^ (e + 1) :=
      lt_of_lt_of_le hnr (Nat.mul_le_mul (by omega) (by omega))
    have hlow : 2 ^ e * 2 ^ e ≤ n := le_trans (Nat.mul_le_mul he1 he1) hrn
    have he26 : 26 ≤ e := by
      by_contra hc
      have : 2 ^ (e + 1) ≤ 2 ^ 26 := Nat.pow_le_pow_right (by norm_num) (by omega)
      have := Nat.mul_le_mul this this
      omega
    have he31 : e < 32 := by
      by_contra hc
      have : 2 ^ 32 ≤ 2 ^ e := Nat.pow_le_pow_right (by norm_num) (by omega)
      omega
    obtain ⟨f, rfl⟩ := Nat.exists_eq_add_of_le he26
    have hlowD : (2 : ℝ) ^ (26 + f) * 2 ^ (26 + f) ≤ x := by
      have hD := isDouble_nat (m := 1) (26 + f + (26 + f)) (by norm_num)
      have := nearest_ge hD (by rw [Nat.one_mul, pow_add]; exact_mod_cast hlow) hx
      rw [Nat.one_mul, Nat.pow_add] at this
      exact_mod_cast this
    have hroot : (2 : ℝ) ^ (26 + f) ≤ Real.sqrt x := by
      apply Real.le_sqrt_of_sq_le
      rwa [pow_two]
    have hrne : 2 ^ (26 + f) < r := by
      have : (2 : ℝ) ^ (26 + f) < r := lt_of_le_of_lt hroot hlt
      exact_mod_cast this
    have herr : n - x ≤ (2 : ℝ) ^ f * 2 ^ f := by
      have := nearest_err (k := 2 * f + 1) (by
        rw [show 53 + (2 * f + 1) = (26 + f + 1) + (26 + f + 1) by omega, Nat.pow_add]; exact hne) hx
      rw [abs_of_neg (by linarith), pow_succ, two_mul f, pow_add] at this
      linarith
    by_contra hc
    have hyr : y < r := lt_of_not_ge hc
    have hyD : (2 : ℝ) ^ (26 + f) ≤ y := by
      have hD := isDouble_nat (m := 1) (26 + f) (by norm_num)
      rw [Nat.one_mul] at hD
      have := nearest_ge hD (by exact_mod_cast hroot) hy
      exact_mod_cast this
    have hgap := double_gap (by omega) hy.1 hyD hyr
    have hnear := hy.2 _ hrD
    rw [abs_of_pos (a := (r : ℝ) - _) (by linarith)] at hnear
    have habs := neg_le_abs (y - Real.sqrt x)
    have hsq : Real.sqrt x * Real.sqrt x = x := Real.mul_self_sqrt hx0
    have hG : (0 : ℝ) < 2 ^ f := by positivity
    have hrr : (r : ℝ) * r ≤ n := by exact_mod_cast hrn
    have hrne' : (2 : ℝ) ^ (26 + f) + 1 ≤ r := by exact_mod_cast hrne
    rw [pow_add] at hgap hroot hrne'
    generalize (2 : ℝ) ^ f = G at *
    generalize Real.sqrt x = q at *
    have hr' : (0 : ℝ) < r := by positivity
    generalize (r : ℝ) = R at *
    have h1 : (R - q) * (R + q) ≤ G * G := by nlinarith
    have h2 : G / 2 ^ 26 ≤ 2 * (R - q) := by
      have : (2 : ℝ) ^ 26 * G / 2 ^ 52 = G / 2 ^ 26 := by
        rw [show (2 : ℝ) ^ 52 = 2 ^ 26 * 2 ^ 26 by norm_num]
        field_simp
      linarith
    have h3 : 2 * (2 ^ 26 * G) < R + q := by linarith
    have h4 : G / 2 ^ 26 * (2 * (2 ^ 26 * G)) < 2 * (R - q) * (R + q) := by
      have hpos : 0 < R - q := by linarith
      calc G / 2 ^ 26 * (2 * (2 ^ 26 * G)) < G / 2 ^ 26 * (R + q) := mul_lt_mul_of_pos_left h3 (by positivity)
        _ ≤ 2 * (R - q) * (R + q) := mul_le_mul_of_nonneg_right h2 (by linarith [mul_pos (show (0:ℝ) < 2 ^ 26 by norm_num) hG])
    have h5 : G / 2 ^ 26 * (2 * (2 ^ 26 * G)) = 2 * (G * G) := by field_simp
    linarith

/-- The square root computed in double precision is accurate enough for the loop of `divisors_of`. -/
theorem goodRoot_of_sqrtCast {n s : Nat} (hW : n < 2 ^ 64) (h : SqrtCast n s) : GoodRoot n s ∧ s ≤ 2 ^ 32 := by
  obtain ⟨x, y, hx, hy, rfl⟩ := h
  have h0D : IsDouble 0 := ⟨0, 0, by norm_num, by simp⟩
  have hx0 : 0 ≤ x := nearest_ge h0D (by positivity) hx
  have hy0 : 0 ≤ y := nearest_ge h0D (Real.sqrt_nonneg _) hy
  have hxW : x ≤ 2 ^ 64 := by
    have hD := isDouble_nat (m := 1) 64 (by norm_num)
    have := nearest_le hD (by rw [Nat.one_mul]; exact_mod_cast hW.le) hx
    rw [Nat.one_mul] at this
    exact_mod_cast this
  have hyW : y ≤ 2 ^ 32 := by
    have hD := isDouble_nat (m := 1) 32 (by norm_num)
    have hs : Real.sqrt x ≤ ((1 * 2 ^ 32 : Nat) : ℝ) := by
      rw [Real.sqrt_le_left (by positivity)]
      norm_num
      norm_num at hxW
      exact hxW
    have := nearest_le hD hs hy
    rw [Nat.one_mul] at this
    exact_mod_cast this
  have hsW : ⌊y⌋₊ ≤ 2 ^ 32 := Nat.floor_le_of_le (by exact_mod_cast hyW)
  refine ⟨⟨?_, ?_⟩, hsW⟩
  · rcases Nat.eq_zero_or_pos n with rfl | hn
    · simp
    · exact Nat.le_floor (sqrtCast_ge hW hn hx hy)
  · have hfl : (⌊y⌋₊ : ℝ) ≤ y := Nat.floor_le hy0
    generalize ⌊y⌋₊ = s at *
    by_contra hc
    rw [not_or] at hc
    obtain ⟨hc1, hc2⟩ := hc
    obtain ⟨t, rfl⟩ := Nat.exists_eq_succ_of_ne_zero hc2
    rw [Nat.succ_sub_one, Nat.succ_eq_add_one] at hc1
    rw [Nat.succ_eq_add_one] at hfl hsW
    have hnt : n ≤ (t + 1) * t := Nat.le_of_not_lt hc1
    have hD : IsDouble ((t : ℝ) + 3 / 4) := by
      refine ⟨4 * t + 3, -2, ?_, ?_⟩
      · rw [abs_of_nonneg (by positivity)]; omega
      · push_cast
        rw [show (2 : ℝ) ^ (-2 : ℤ) = 1 / 4 by norm_num]
        ring
    have hup : x ≤ n + t / 2 := by
      by_cases hsm : n < 2 ^ 53
      · have hnD : IsDouble (n : ℝ) := by simpa using isDouble_nat (m := n) 0 hsm
        rw [nearest_exact hnD hx]
        have : (0 : ℝ) ≤ t := by positivity
        linarith
      · have herr := nearest_err (k := 11) hW hx
        have ht : 2 ^ 20 ≤ t := by
          by_contra hlt
          have : (t + 1) * t ≤ 2 ^ 20 * 2 ^ 20 := Nat.mul_le_mul (by omega) (by omega)
          omega
        have ht' : (1048576 : ℝ) ≤ t := by exact_mod_cast ht
        have := le_abs_self (x - n)
        norm_num at herr
        linarith
    have hroot : Real.sqrt x ≤ t + 3 / 4 := by
      rw [Real.sqrt_le_left (by positivity)]
      have : (n : ℝ) ≤ (t + 1) * t := by exact_mod_cast hnt
      nlinarith
    have := nearest_le hD hroot hy
    push_cast at hfl
    linarith

/-- C79 for the code as written, with `square` computed by the conversion to double, `std::sqrt` and the conversion back:
for every 64-bit `n` the result lists exactly the divisors other than 1 and `n`, each once, in increasing order when asked. -/
theorem C79_ieee (n s : Nat) (sorting : Bool) (hW : n < W) (hs : SqrtCast n s) :
    (divisorsOf s n sorting).Nodup ∧ (∀ d, d ∈ divisorsOf s n sorting ↔ 1 < d ∧ d < n ∧ d ∣ n) ∧
    (sorting = true → (divisorsOf s n sorting).Pairwise (· < ·)) :=
  C79_divisors n s sorting hW (goodRoot_of_sqrtCast hW hs).1

theorem nearest_self {x : ℝ} (h : IsDouble x) : Nearest x x := ⟨h, fun z _ => by simp⟩

theorem sqrtCast_square {r : Nat} (hr : r < 2 ^ 26) : SqrtCast (r * r) r := by
  have h1 : r * r < 2 ^ 53 := by
    have : r * r ≤ 2 ^ 26 * 2 ^ 26 := Nat.mul_le_mul hr.le hr.le
    omega
  refine ⟨(r * r : Nat), r, nearest_self (by simpa using isDouble_nat (m := r * r) 0 h1), ?_, by simp⟩
  have : Real.sqrt ((r * r : Nat) : ℝ) = r := by
    push_cast
    exact Real.sqrt_mul_self (by positivity)
  rw [this]
  exact nearest_self (by simpa using isDouble_nat (m := r) 0 (by omega))

/-- The root may exceed the integer square root: `2^64 - 1` is converted to the double `2^64`, whose root is `2^32`. -/
theorem sqrtCast_above : SqrtCast (2 ^ 64 - 1) (2 ^ 32) ∧ Nat.sqrt (2 ^ 64 - 1) = 2 ^ 32 - 1 := by
  refine ⟨⟨2 ^ 64, 2 ^ 32, ⟨⟨1, 64, by norm_num, by norm_num⟩, ?_⟩, ?_, ?_⟩, ?_⟩
  · intro z hz
    have hn : (((2 ^ 64 - 1 : Nat)) : ℝ) = 2 ^ 64 - 1 := by norm_num
    rw [hn, show ((2 : ℝ) ^ 64 - (2 ^ 64 - 1)) = 1 by norm_num, abs_one]
    by_cases hge : 2 ^ 64 ≤ z
    · exact le_trans (by linarith) (le_abs_self _)
    · have hlt : z < 2 ^ 64 := lt_of_not_ge hge
      suffices z ≤ 2 ^ 64 - 2 ^ 11 by
        refine le_trans ?_ (neg_le_abs _)
        norm_num at this ⊢
        linarith
      obtain ⟨m, t, hm, rfl⟩ := hz
      have hm' : m ≤ 2 ^ 53 - 1 := by have := le_abs_self m; omega
      rcases le_total t 11 with ht | ht
      · have hp : (2 : ℝ) ^ t ≤ 2 ^ (11 : ℤ) := zpow_le_zpow_right₀ (by norm_num) ht
        have hp0 : (0 : ℝ) < 2 ^ t := zpow_pos (by norm_num) t
        have hm'' : (m : ℝ) ≤ 2 ^ 53 - 1 := by exact_mod_cast hm'
        calc (m : ℝ) * 2 ^ t ≤ (2 ^ 53 - 1) * 2 ^ t := mul_le_mul_of_nonneg_right hm'' hp0.le
          _ ≤ (2 ^ 53 - 1) * 2 ^ (11 : ℤ) := mul_le_mul_of_nonneg_left hp (by norm_num)
          _ = 2 ^ 64 - 2 ^ 11 := by norm_num
      · obtain ⟨j, hj⟩ := Int.eq_ofNat_of_zero_le (show 0 ≤ t - 11 by omega)
        have ht' : (2 : ℝ) ^ t = 2 ^ j * 2 ^ 11 := by
          rw [show t = (j : ℤ) + (11 : ℕ) by omega, zpow_add₀ (by norm_num), zpow_natCast, zpow_natCast]
        rw [ht'] at hlt ⊢
        have h3 : (m : ℝ) * 2 ^ j * 2 ^ 11 < 2 ^ 53 * 2 ^ 11 := by rw [mul_assoc]; norm_num at hlt ⊢; exact hlt
        have h4 : m * 2 ^ j < (2 ^ 53 : ℤ) := by exact_mod_cast lt_of_mul_lt_mul_right h3 (by positivity)
        have h5 : (m : ℝ) * 2 ^ j ≤ 2 ^ 53 - 1 := by exact_mod_cast (by omega : m * 2 ^ j ≤ (2 ^ 53 - 1 : ℤ))
        calc (m : ℝ) * (2 ^ j * 2 ^ 11) = m * 2 ^ j * 2 ^ 11 := by ring
          _ ≤ (2 ^ 53 - 1) * 2 ^ 11 := mul_le_mul_of_nonneg_right h5 (by positivity)
          _ = 2 ^ 64 - 2 ^ 11 := by norm_num
  · have : Real.sqrt (2 ^ 64) = 2 ^ 32 := by
      rw [show (2 : ℝ) ^ 64 = 2 ^ 32 * 2 ^ 32 by norm_num]
      exact Real.sqrt_mul_self (by positivity)
    rw [this]
    exact nearest_self ⟨1, 32, by norm_num, by norm_num⟩
  · rw [show (2 : ℝ) ^ 32 = ((2 ^ 32 : Nat) : ℝ) by norm_num, Nat.floor_natCast]
  · exact (Nat.eq_sqrt.mpr (by norm_num)).symm

example : SqrtCast 144 12 ∧ divisorsOf 12 144 false = [2, 72, 3, 48, 4, 36, 6, 24, 8, 18, 9, 16, 12] :=
  ⟨sqrtCast_square (r := 12) (by norm_num), by decide +kernel⟩

end Verif.Tools
