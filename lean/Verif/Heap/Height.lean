import Verif.Heap.Props
import Verif.Tools.PropsFloat
import Mathlib.Analysis.SpecialFunctions.Log.Base

/-!
heap.h:38-41 `height_of`, and C187: the level of a position.

`return std::log2(pos) + 1;` converts `pos` to double, takes the logarithm, adds one in double and truncates to `size_t`.  The
doubles are those of `Verif/Tools/PropsFloat.lean`; each of the three roundings gives *some* nearest double (a C library may be off by
a little more for the logarithm).  The logarithm of 0 is minus infinity, whose conversion to `size_t` is undefined.
-/

namespace Verif.Heap
open Verif.Tools (IsDouble Nearest nearest_exact nearest_ge nearest_le isDouble_nat)

/-- `h` is a possible value of `static_cast<size_t>(std::log2(n) + 1)`. -/
def HeightCast (n h : Nat) : Prop :=
  ∃ x y z : ℝ, Nearest n x ∧ Nearest (Real.logb 2 x) y ∧ Nearest (y + 1) z ∧ h = ⌊z⌋₊

/-- heap.h:38-41 `height_of`. -/
def HeightOf (pos : Nat) (r : Res Nat) : Prop :=
  if pos = 0 then r = .ub else ∃ h, HeightCast pos h ∧ r = .ok h

/-- The level of a position: 1 for the root, one more for each child. -/
def Spec.level (pos : Nat) : Nat := if h : pos = 0 then 1 else level ((pos - 1) / 2) + 1
decreasing_by omega

open Spec

/-- C187 (full statement): `height_of` is the level of the position. -/
def C187_statement : Prop := ∀ pos, pos < W → ∀ r, HeightOf pos r → r = .ok (level pos)

theorem level_children (pos : Nat) : level (leftOf pos) = level pos + 1 ∧ level (rightOf pos) = level pos + 1 := by
  obtain ⟨h1, h2, -⟩ := C61_positions pos
  rw [h1, h2]
  constructor <;> rw [level, dif_neg (by omega)] <;> congr 2 <;> omega

theorem level_log (pos : Nat) : level pos = Nat.log2 (pos + 1) + 1 := by
  induction pos using Nat.strongRecOn with
  | _ pos ih =>
    rw [level]
    by_cases h : pos = 0
    · subst h; rfl
    · rw [dif_neg h, ih _ (by omega)]
      have e : (pos - 1) / 2 + 1 = (pos + 1) / 2 := by omega
      rw [e, Nat.log2_def (pos + 1), if_pos (by omega)]

/-! ### Rounding -/

theorem double_int {k : Nat} (h : k < 2 ^ 53) : IsDouble (k : ℝ) := by
  have := isDouble_nat (m := k) 0 h
  simpa using this

/-- A multiple of `2^-47` below 64. -/
theorem double_grid {m : Int} (h0 : 0 ≤ m) (h : m < 64 * 2 ^ 47) : IsDouble ((m : ℝ) * (2 : ℝ) ^ (-47 : ℤ)) :=
  ⟨m, -47, by rw [abs_of_nonneg h0]; omega, rfl⟩

theorem grid_eq (j k : Nat) (h : k ≤ 47) :
    ((j : ℝ) - 1 / 2 ^ k) = (((j : Int) * 2 ^ 47 - 2 ^ (47 - k) : Int) : ℝ) * (2 : ℝ) ^ (-47 : ℤ) := by
  have e : (2 : ℝ) ^ (47 - k) * 2 ^ k = 2 ^ 47 := by rw [← pow_add]; congr 1; omega
  have hk : (2 : ℝ) ^ k ≠ 0 := by positivity
  push_cast
  rw [zpow_neg]
  have h47 : (2 : ℝ) ^ (47 : ℤ) = 2 ^ 47 := by norm_cast
  have h47' : (140737488355328 : ℝ) = 2 ^ 47 := by norm_num
  rw [h47, h47', sub_mul, mul_inv_cancel_right₀ (by positivity)]
  congr 1
  rw [← e]
  field_simp

theorem logb_ge {n k : Nat} (h : 2 ^ k ≤ n) : (k : ℝ) ≤ Real.logb 2 n := by
  have h1 : (2 : ℝ) ^ (k : ℝ) ≤ n := by rw [Real.rpow_natCast]; exact_mod_cast h
  have hn : (0 : ℝ) < n := lt_of_lt_of_le (by positivity) h1
  exact (Real.le_logb_iff_rpow_le (by norm_num) hn).2 h1

/-- `log2 (2^k - 1) ≤ k - 2^-k`. -/
theorem logb_lt {n k : Nat} (h0 : 0 < n) (h : n < 2 ^ k) : Real.logb 2 n ≤ k - 1 / 2 ^ k := by
  have hn : (0 : ℝ) < n := by exact_mod_cast h0
  have hp : (0 : ℝ) < 2 ^ k := by positivity
  have h1 : (n : ℝ) ≤ 2 ^ k * (1 - 1 / 2 ^ k) := by
    rw [mul_sub, mul_one, mul_one_div, div_self hp.ne']
    have : n + 1 ≤ 2 ^ k := h
    have : (n : ℝ) + 1 ≤ 2 ^ k := by exact_mod_cast this
    linarith
  have h2 : (0 : ℝ) < 1 - 1 / 2 ^ k := by
    by_contra hc
    have := mul_nonpos_of_nonneg_of_nonpos hp.le (not_lt.1 hc)
    linarith
  have h3 : Real.logb 2 n ≤ Real.logb 2 (2 ^ k * (1 - 1 / 2 ^ k)) := Real.logb_le_logb_of_le (by norm_num) hn h1
  rw [Real.logb_mul hp.ne' h2.ne', Real.logb_pow, Real.logb_self_eq_one (by norm_num), mul_one] at h3
  have h4 : Real.logb 2 (1 - 1 / 2 ^ k) ≤ -(1 / 2 ^ k) := by
    unfold Real.logb
    have hl : 0 < Real.log 2 := Real.log_pos (by norm_num)
    rw [div_le_iff₀ hl]
    have h5 := Real.log_le_sub_one_of_pos h2
    have h6 : Real.log 2 ≤ 1 := by
      have := Real.log_le_sub_one_of_pos (show (0 : ℝ) < 2 by norm_num)
      linarith
    have h7 : (0 : ℝ) ≤ 1 / 2 ^ k := by positivity
    nlinarith
  linarith

/-- The cast below `2^47`. -/
theorem height_small {n h k : Nat} (hk : k < 47) (h1 : 2 ^ k ≤ n) (h2 : n < 2 ^ (k + 1)) (hc : HeightCast n h) : h = k + 1 := by
  obtain ⟨x, y, z, hx, hy, hz, rfl⟩ := hc
  have hn : n < 2 ^ 53 := lt_of_lt_of_le h2 (Nat.pow_le_pow_right (by omega) (by omega))
  have ex : x = n := nearest_exact (double_int hn) hx
  subst ex
  have hpos : 0 < n := lt_of_lt_of_le (Nat.two_pow_pos k) h1
  have p47 : (2 : Int) ^ (47 - (k + 1)) ≤ 2 ^ 47 := by
    exact_mod_cast Nat.pow_le_pow_right (by omega) (show 47 - (k + 1) ≤ 47 by omega)
  have p1 : (0 : Int) < 2 ^ (47 - (k + 1)) := by positivity
  have y1 : (k : ℝ) ≤ y := nearest_ge (double_int (by omega)) (logb_ge h1) hy
  have y2 : y ≤ ((k + 1 : Nat) : ℝ) - 1 / 2 ^ (k + 1) := by
    refine nearest_le ?_ (logb_lt hpos h2) hy
    rw [grid_eq _ _ (by omega)]
    generalize (2 : Int) ^ (47 - (k + 1)) = q at p47 p1 ⊢
    exact double_grid (by push_cast; omega) (by push_cast; omega)
  have z1 : ((k + 1 : Nat) : ℝ) ≤ z := nearest_ge (double_int (by omega)) (by push_cast; linarith) hz
  have z2 : z ≤ ((k + 2 : Nat) : ℝ) - 1 / 2 ^ (k + 1) := by
    refine nearest_le ?_ (by push_cast at y2 ⊢; linarith) hz
    rw [grid_eq _ _ (by omega)]
    generalize (2 : Int) ^ (47 - (k + 1)) = q at p47 p1 ⊢
    exact double_grid (by push_cast; omega) (by push_cast; omega)
  rw [Nat.floor_eq_iff (le_trans (Nat.cast_nonneg _) z1)]
  have : (0 : ℝ) < 1 / 2 ^ (k + 1) := by positivity
  refine ⟨z1, ?_⟩
  push_cast at z2 ⊢
  linarith

/-- A double of 32 or more is a multiple of `2^-47`. -/
theorem double_multiple {y : ℝ} (hy : IsDouble y) (h : 32 ≤ y) : ∃ m : Int, y * 2 ^ 47 = m := by
  obtain ⟨m, e, hm, rfl⟩ := hy
  have he : -47 ≤ e := by
    by_contra hc
    have h1 : (2 : ℝ) ^ e ≤ 2 ^ (-48 : ℤ) := zpow_le_zpow_right₀ (by norm_num) (by omega)
    have h2 : (m : ℝ) ≤ 2 ^ 53 - 1 := by
      have : m ≤ 2 ^ 53 - 1 := by have := le_abs_self m; omega
      exact_mod_cast this
    have h3 : (0 : ℝ) < 2 ^ e := by positivity
    have h4 : (m : ℝ) * 2 ^ e ≤ (2 ^ 53 - 1) * 2 ^ e := mul_le_mul_of_nonneg_right h2 h3.le
    have h5 : ((2 : ℝ) ^ 53 - 1) * 2 ^ e ≤ (2 ^ 53 - 1) * 2 ^ (-48 : ℤ) := mul_le_mul_of_nonneg_left h1 (by norm_num)
    have h6 : ((2 : ℝ) ^ 53 - 1) * 2 ^ (-48 : ℤ) < 32 := by norm_num
    linarith
  obtain ⟨j, hj⟩ : ∃ j : Nat, e + 47 = j := ⟨(e + 47).toNat, by omega⟩
  refine ⟨m * 2 ^ j, ?_⟩
  push_cast
  rw [mul_assoc]
  congr 1
  rw [← zpow_natCast (2 : ℝ) 47, ← zpow_natCast (2 : ℝ) j, ← zpow_add₀ (by norm_num)]
  congr 1

/-- `log2 (2^k - 2) ≥ k - 2^(2-k)`. -/
theorem logb_near {k : Nat} (hk : 8 ≤ k) : (k : ℝ) - 4 / 2 ^ k ≤ Real.logb 2 ((2 ^ k - 2 : Nat) : ℝ) := by
  have hp : (0 : ℝ) < 2 ^ k := by positivity
  have h256 : (256 : ℝ) ≤ 2 ^ k := by
    have : 2 ^ 8 ≤ 2 ^ k := Nat.pow_le_pow_right (by omega) hk
    exact_mod_cast this
  obtain ⟨u, hu⟩ : ∃ u : ℝ, u = 2 / 2 ^ k := ⟨_, rfl⟩
  have hu0 : 0 < u := by rw [hu]; positivity
  have hu1 : u ≤ 1 / 128 := by rw [hu, div_le_div_iff₀ hp (by norm_num)]; linarith
  have e : ((2 ^ k - 2 : Nat) : ℝ) = 2 ^ k * (1 - u) := by
    rw [Nat.cast_sub (le_trans (by norm_num) (Nat.pow_le_pow_right (by omega) hk)), hu, mul_sub, mul_div_cancel₀ _ hp.ne']
    push_cast; ring
  have h1u : 0 < 1 - u := by linarith
  rw [e, Real.logb_mul hp.ne' h1u.ne', Real.logb_pow, Real.logb_self_eq_one (by norm_num), mul_one]
  have h4 : (4 : ℝ) / 2 ^ k = 2 * u := by rw [hu]; ring
  rw [h4]
  have hl : 7 / 12 ≤ Real.log 2 := by
    have a := Real.one_sub_inv_le_log_of_pos (show (0 : ℝ) < 4 / 3 by norm_num)
    have b := Real.one_sub_inv_le_log_of_pos (show (0 : ℝ) < 3 / 2 by norm_num)
    have c : Real.log 2 = Real.log (4 / 3) + Real.log (3 / 2) := by
      rw [← Real.log_mul (by norm_num) (by norm_num)]; norm_num
    rw [c]
    norm_num at a b ⊢
    linarith
  have key : -(2 * u) ≤ Real.logb 2 (1 - u) := by
    unfold Real.logb
    rw [le_div_iff₀ (by linarith)]
    have a := Real.one_sub_inv_le_log_of_pos h1u
    have b : -(7 / 6 * u) ≤ 1 - (1 - u)⁻¹ := by
      have : (1 - u)⁻¹ ≤ 1 + 7 / 6 * u := by
        rw [inv_le_iff_one_le_mul₀ h1u]
        nlinarith
      linarith
    nlinarith
  linarith

/-- C187 is false in either numbering where the logarithm is rounded up: position `2^51 - 2` is the last one of level 51. -/
theorem height_large {h : Nat} (hc : HeightCast (2 ^ 51 - 2) h) : h = 52 := by
  obtain ⟨x, y, z, hx, hy, hz, rfl⟩ := hc
  have ex : x = ((2 ^ 51 - 2 : Nat) : ℝ) := nearest_exact (double_int (by norm_num)) hx
  subst ex
  have v1 := logb_near (k := 51) (by norm_num)
  have v2 := logb_lt (n := 2 ^ 51 - 2) (k := 51) (by norm_num) (by norm_num)
  generalize Real.logb 2 ((2 ^ 51 - 2 : Nat) : ℝ) = v at *
  have d51 : IsDouble (51 : ℝ) := by have := double_int (k := 51) (by norm_num); exact_mod_cast this
  have e1 := hy.2 51 d51
  have v3 : |51 - v| ≤ 4 / 2 ^ 51 := by
    rw [abs_le]
    push_cast at v1 v2
    constructor
    · have : (0 : ℝ) ≤ 1 / 2 ^ 51 := by positivity
      have : (0 : ℝ) ≤ 4 / 2 ^ 51 := by positivity
      linarith
    · linarith
  have e2 : |y - 51| ≤ 8 / 2 ^ 51 := by
    have := abs_sub_le y v 51
    rw [abs_sub_comm v 51] at this
    have e3 : (8 : ℝ) / 2 ^ 51 = 4 / 2 ^ 51 + 4 / 2 ^ 51 := by ring
    linarith
  have ey : y = 51 := by
    obtain ⟨m, hm⟩ := double_multiple hy.1 (by
      have := (abs_le.1 e2).1
      have : (8 : ℝ) / 2 ^ 51 ≤ 1 := by norm_num
      linarith)
    have h1 : |(m : ℝ) - 51 * 2 ^ 47| ≤ 1 / 2 := by
      rw [← hm, ← sub_mul, abs_mul, abs_of_pos (show (0 : ℝ) < 2 ^ 47 by positivity)]
      have : (8 : ℝ) / 2 ^ 51 * 2 ^ 47 ≤ 1 / 2 := by norm_num
      exact le_trans (mul_le_mul_of_nonneg_right e2 (by positivity)) this
    have h2 : m = 51 * 2 ^ 47 := by
      rw [abs_le] at h1
      have a : (m : ℝ) < ((51 * 2 ^ 47 + 1 : Int) : ℝ) := by push_cast; linarith
      have b : ((51 * 2 ^ 47 - 1 : Int) : ℝ) < m := by push_cast; linarith
      have a' : m < 51 * 2 ^ 47 + 1 := by exact_mod_cast a
      have b' : 51 * 2 ^ 47 - 1 < m := by exact_mod_cast b
      omega
    rw [h2] at hm
    push_cast at hm
    have : (0 : ℝ) < 2 ^ 47 := by positivity
    nlinarith
  subst ey
  have ez : z = 52 := by
    have := nearest_exact (x := (51 : ℝ) + 1) (y := z) ?_ hz
    · rw [this]; norm_num
    · have := double_int (k := 52) (by norm_num)
      norm_num at this ⊢
      exact this
  rw [ez]
  norm_num

/-- C187, counterexample: the call for the root is undefined. -/
theorem C187_counterexample : ¬ C187_statement := by
  intro h
  have := h 0 (by unfold W; omega) .ub (by unfold HeightOf; rw [if_pos rfl])
  cases this

theorem heightOf_pos {pos : Nat} {r : Res Nat} (h0 : pos ≠ 0) (h : HeightOf pos r) : ∃ k, HeightCast pos k ∧ r = .ok k := by
  unfold HeightOf at h; rwa [if_neg h0] at h

/-- C187, counterexample for large positions: `2^51 - 2` lies on level 51, whether positions are counted from 0 or from 1, but the
logarithm is rounded up and `height_of` gives 52. -/
theorem C187_counterexample_large (r : Res Nat) (h : HeightOf (2 ^ 51 - 2) r) :
    r = .ok 52 ∧ level (2 ^ 51 - 2) = 51 ∧ level (2 ^ 51 - 3) = 51 := by
  obtain ⟨k, hk, rfl⟩ := heightOf_pos (by norm_num) h
  refine ⟨by rw [height_large hk], ?_, ?_⟩ <;> rw [level_log] <;> decide +kernel

/-- **C187** exactly, below `2^47`: `height_of` gives the level of the position before, as if positions were counted from 1.  This is
the level of the position itself if and only if it is not the leftmost one of its level; siblings at the left edge differ. -/
theorem C187_exact (pos : Nat) (h0 : pos ≠ 0) (h1 : pos < 2 ^ 47) (r : Res Nat) (h : HeightOf pos r) :
    r = .ok (level (pos - 1)) ∧ (r = .ok (level pos) ↔ ∀ k, pos + 1 ≠ 2 ^ k) := by
  obtain ⟨j, hj, rfl⟩ := heightOf_pos h0 h
  have a1 := Nat.log2_self_le h0
  have a2 : pos < 2 ^ (Nat.log2 pos + 1) := Nat.lt_log2_self
  have a3 : Nat.log2 pos < 47 := (Nat.log2_lt h0).2 h1
  have e := height_small a3 a1 a2 hj
  subst e
  have e1 : level (pos - 1) = Nat.log2 pos + 1 := by rw [level_log]; congr 2; omega
  rw [e1]
  refine ⟨rfl, ?_⟩
  rw [level_log]
  have b1 := Nat.log2_self_le (show pos + 1 ≠ 0 by omega)
  have b2 : pos + 1 < 2 ^ (Nat.log2 (pos + 1) + 1) := Nat.lt_log2_self
  have ok_inj : ∀ a b : Nat, (Res.ok a = Res.ok b) ↔ a = b := fun a b => ⟨fun h => by injection h, fun h => by rw [h]⟩
  rw [ok_inj]
  constructor
  · intro he k hk
    have he' : Nat.log2 pos = Nat.log2 (pos + 1) := by omega
    have c1 : Nat.log2 (pos + 1) = k := by rw [hk, Nat.log2_two_pow]
    rw [he', c1] at a1
    omega
  · intro hne
    have c1 : Nat.log2 pos ≤ Nat.log2 (pos + 1) := (Nat.le_log2 (by omega)).2 (by omega)
    have c2 : Nat.log2 (pos + 1) ≤ Nat.log2 pos := by
      refine (Nat.le_log2 h0).2 ?_
      have := hne (Nat.log2 (pos + 1))
      omega
    omega

/-- C187 (part): right for the positions below `2^47` that are not the leftmost ones of their levels.  Missing: the others. -/
theorem C187_partial (pos : Nat) (h0 : pos ≠ 0) (h1 : pos < 2 ^ 47) (h2 : ∀ k, pos + 1 ≠ 2 ^ k) (r : Res Nat) (h : HeightOf pos r) :
    r = .ok (level pos) := (C187_exact pos h0 h1 r h).2.2 h2

/-- The children of the root: levels 2 and 2, `height_of` gives 1 and 2. -/
theorem C187_siblings (r1 r2 : Res Nat) (h1 : HeightOf (leftOf 0) r1) (h2 : HeightOf (rightOf 0) r2) :
    r1 = .ok 1 ∧ r2 = .ok 2 ∧ level (leftOf 0) = 2 ∧ level (rightOf 0) = 2 := by
  refine ⟨?_, ?_, by decide +kernel, by decide +kernel⟩
  · rw [(C187_exact 1 (by decide) (by norm_num) r1 h1).1]; decide +kernel
  · rw [(C187_exact 2 (by decide) (by norm_num) r2 h2).1]; decide +kernel

theorem exact_nearest {x : ℝ} (h : IsDouble x) : Nearest x x :=
  ⟨h, fun z _ => by rw [sub_self, abs_zero]; exact abs_nonneg _⟩

/-- The values exist: `height_of(8)` may be 4, and is on level 4. -/
example : HeightOf 8 (.ok 4) ∧ level 8 = 4 := by
  refine ⟨?_, by decide +kernel⟩
  unfold HeightOf
  rw [if_neg (by decide)]
  have d3 : IsDouble (3 : ℝ) := by have := double_int (k := 3) (by norm_num); exact_mod_cast this
  have d4 : IsDouble (4 : ℝ) := by have := double_int (k := 4) (by norm_num); exact_mod_cast this
  have d8 : IsDouble ((8 : Nat) : ℝ) := double_int (by norm_num)
  have e : Real.logb 2 ((8 : Nat) : ℝ) = 3 := by
    have : ((8 : Nat) : ℝ) = 2 ^ 3 := by norm_num
    rw [this, Real.logb_pow, Real.logb_self_eq_one (by norm_num)]; norm_num
  refine ⟨4, ⟨(8 : Nat), 3, 4, exact_nearest d8, by rw [e]; exact exact_nearest d3, ?_, by norm_num⟩, rfl⟩
  have : (3 : ℝ) + 1 = 4 := by norm_num
  rw [this]; exact exact_nearest d4

end Verif.Heap
