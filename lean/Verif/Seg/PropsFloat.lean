import Verif.Seg.Props
import Mathlib.Analysis.SpecialFunctions.Log.Base
import Mathlib.Tactic.Linarith
import Mathlib.Tactic.NormNum

/-
C56 with the floating-point size computation of segment_tree.h:287-290,
`static_cast<size_t>(std::ceil(std::pow(2.0, std::log2(size) + 2)))`.
-/

namespace Verif.Seg
open Spec
variable {T V U : Type}

/-- Any allocation that falls short of `4 n` by at most one part in `2^33` is roomy. -/
theorem roomy_of_relative {need : Nat → Nat} (h : ∀ n, 0 < n → n ≤ W → 2 ^ 33 * (4 * n) ≤ 2 ^ 33 * need n + 4 * n) :
    Roomy need := by
  intro n hn hW
  obtain ⟨g, hg, hgg, -⟩ := top_margin n hn
  have hh := h n hn hW
  have hW' : n ≤ 2 ^ 64 := hW
  by_contra hc
  have h1 : 2 ^ 33 * g ≤ 4 * n := by omega
  have h2 := Nat.mul_le_mul h1 h1
  have h3 : 2 ^ 33 * g * (2 ^ 33 * g) = 2 ^ 66 * (g * g) := by ring
  have h4 : 4 * n * (4 * n) ≤ 16 * 2 ^ 64 * n := by nlinarith
  omega

/-- C56: the allocation `ceil(pow(2.0, log2(size) + 2))` leaves enough room whenever the computed power `p n` is accurate to
one part in `2^33`.  IEEE doubles carry 53 bits, and the rounding of `log2(size) + 2 ≤ 66` costs at most 7 of them. -/
theorem C56_float (p : Nat → ℝ)
    (hp : ∀ n : Nat, 0 < n → n ≤ W →
      |p n - (2 : ℝ) ^ (Real.logb 2 n + 2)| ≤ (2 : ℝ) ^ (Real.logb 2 n + 2) / 2 ^ 33) :
    Roomy fun n => ⌈p n⌉₊ := by
  apply roomy_of_relative
  intro n hn hW
  have hn' : (0 : ℝ) < n := by exact_mod_cast hn
  have hexact : (2 : ℝ) ^ (Real.logb 2 n + 2) = 4 * n := by
    rw [Real.rpow_add (by norm_num), Real.rpow_logb (by norm_num) (by norm_num) hn']
    norm_num
    ring
  have h1 := hp n hn hW
  rw [hexact] at h1
  have h2 := neg_le_of_abs_le h1
  have h3 := Nat.le_ceil (p n)
  have h4 : (2 : ℝ) ^ 33 * (4 * n) ≤ 2 ^ 33 * ⌈p n⌉₊ + 4 * n := by
    have : (2 : ℝ) ^ 33 * (4 * n / 2 ^ 33) = 4 * n := by field_simp
    nlinarith
  exact_mod_cast h4

/-- C56, histories with the floating-point allocation. -/
theorem C56_float_in_bounds (X : Transform T V U) (K : Keeps X) (p : Nat → ℝ)
    (hp : ∀ n : Nat, 0 < n → n ≤ W →
      |p n - (2 : ℝ) ^ (Real.logb 2 n + 2)| ≤ (2 : ℝ) ^ (Real.logb 2 n + 2) / 2 ^ 33)
    (input : List T) (number : Nat) (hb : input.length ≤ W) (hne : input.take number ≠ [])
    (ops : List (Op T U)) (hops : ∀ op ∈ ops, OpOk (fun _ => True) op) :
    ∃ t vs, run X (fun n => ⌈p n⌉₊) SegT.new (.rebuild input number :: ops) = .ok (t, vs) :=
  (C56_in_bounds X K _ (C56_float p hp) input number hb hne ops hops).1

/-- The margin is not idle: three cells per element are too few, and one cell less than `top` is too few. -/
example : top 36 1 = 113 ∧ build addSum (fun n => 3 * n) SegT.new (List.replicate 36 1) 36 = .ub ∧
    build addSum (fun _ => 112) SegT.new (List.replicate 36 1) 36 = .ub ∧
    (build addSum (fun _ => 113) SegT.new (List.replicate 36 1) 36).isOk = true := by
  refine ⟨by simp [top], ?_⟩
  decide +kernel

end Verif.Seg
