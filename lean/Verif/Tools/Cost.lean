import Verif.Tools.PropsFloat
import Mathlib.Data.Nat.Fib.Basic

/-!
C173: the cost of tools/divisors.h: the number of calls of the recursive `gcd` (lines 39-42), and the number of rounds of the loop
of `divisors_of` (lines 20-27).
-/

namespace Verif.Tools

/-- divisors.h:39-42: the number of calls (the depth of the recursion) and the result. -/
def gcdC (a b : Nat) : Nat × Nat :=
  if h : b = 0 then (1, a)
  else
    let r := gcdC b (a % b)
    (r.1 + 1, r.2)
termination_by b
decreasing_by exact Nat.mod_lt _ (Nat.pos_of_ne_zero h)

/-- divisors.h:20-27: the number of rounds and the divisors. -/
def divLoopC (n : Nat) : Nat → Nat → Nat × List Nat
  | 0, _ => (0, [])
  | k + 1, ii =>
    let r := divLoopC n k (ii + 1)
    (r.1 + 1, (if n % ii = 0 then ii :: (if ii * ii % W ≠ n then [n / ii] else []) else []) ++ r.2)

/-- divisors.h:16-32 without sorting. -/
def divisorsOfC (square n : Nat) : Nat × List Nat := divLoopC n (square + 1 - 2) 2

theorem gcdC_zero (a : Nat) : gcdC a 0 = (1, a) := by rw [gcdC]; rfl

theorem gcdC_pos (a : Nat) {b : Nat} (h : b ≠ 0) : gcdC a b = ((gcdC b (a % b)).1 + 1, (gcdC b (a % b)).2) := by
  rw [gcdC, dif_neg h]

theorem divLoopC_eq (n k : Nat) : ∀ ii, divLoopC n k ii = (k, divLoop n k ii) := by
  induction k with
  | zero => intro ii; rfl
  | succ k ih => intro ii; simp only [divLoopC, divLoop, ih]

/-- The counting functions compute what the functions of Model.lean compute. -/
theorem C173_same : (∀ a b, (gcdC a b).2 = gcd a b) ∧ ∀ s n, (divisorsOfC s n).2 = divisorsOf s n false := by
  constructor
  · intro a b
    induction a, b using gcd.induct with
    | case1 a => rw [gcdC_zero, gcd]; rfl
    | case2 a b h ih => rw [gcdC_pos a h, gcd, dif_neg h]; exact ih
  · intro s n
    unfold divisorsOfC divisorsOf
    rw [divLoopC_eq]
    rfl

/-- Lamé: with `n + 2` calls and `b < a` the numbers are at least consecutive Fibonacci numbers. -/
theorem gcdC_fib (n : Nat) : ∀ a b, b < a → n + 2 ≤ (gcdC a b).1 → Nat.fib (n + 2) ≤ b ∧ Nat.fib (n + 3) ≤ a := by
  induction n with
  | zero =>
    intro a b hab h
    have hb : b ≠ 0 := by rintro rfl; rw [gcdC_zero] at h; simp only at h; omega
    have e2 : Nat.fib (0 + 2) = 1 := by decide
    have e3 : Nat.fib (0 + 3) = 2 := by decide
    rw [e2, e3]
    omega
  | succ n ih =>
    intro a b hab h
    have hb : b ≠ 0 := by rintro rfl; rw [gcdC_zero] at h; simp only at h; omega
    rw [gcdC_pos a hb] at h
    obtain ⟨h1, h2⟩ := ih b (a % b) (Nat.mod_lt _ (Nat.pos_of_ne_zero hb)) (by simp only at h; omega)
    refine ⟨h2, ?_⟩
    have e : Nat.fib (n + 1 + 3) = Nat.fib (n + 2) + Nat.fib (n + 3) := Nat.fib_add_two
    rw [e]
    have hq : 1 ≤ a / b := (Nat.one_le_div_iff (Nat.pos_of_ne_zero hb)).2 (Nat.le_of_lt hab)
    have := Nat.div_add_mod a b
    have hm : b * 1 ≤ b * (a / b) := Nat.mul_le_mul_left b hq
    omega

/-- With `n + 2` calls the second number is at least the Fibonacci number `n + 2`, whichever number is greater. -/
theorem C173_lame (a b n : Nat) (h : n + 2 ≤ (gcdC a b).1) : Nat.fib (n + 2) ≤ b := by
  rcases Nat.lt_trichotomy b a with hab | rfl | hab
  · exact (gcdC_fib n a b hab h).1
  · have hb : b ≠ 0 := by rintro rfl; rw [gcdC_zero] at h; simp only at h; omega
    rw [gcdC_pos b hb, Nat.mod_self, gcdC_zero] at h
    have hn : n = 0 := by simp only at h; omega
    subst hn
    have e2 : Nat.fib (0 + 2) = 1 := by decide
    omega
  · have hb : b ≠ 0 := by omega
    rw [gcdC_pos a hb, Nat.mod_eq_of_lt hab] at h
    cases n with
    | zero =>
      have e2 : Nat.fib (0 + 2) = 1 := by decide
      omega
    | succ n => exact (gcdC_fib n b a hab (by simp only at h; omega)).2

theorem two_pow_le_fib (m : Nat) : 2 ^ m ≤ Nat.fib (2 * m + 1) := by
  induction m with
  | zero => decide
  | succ m ih =>
    have e : Nat.fib (2 * (m + 1) + 1) = Nat.fib (2 * m + 1) + Nat.fib (2 * m + 2) := Nat.fib_add_two
    have h : Nat.fib (2 * m + 1) ≤ Nat.fib (2 * m + 2) := Nat.fib_le_fib_succ
    rw [e, Nat.pow_succ]
    omega

/-- C173: `gcd` makes at most `2 log2 b + 3` calls. -/
theorem C173_gcd_log (a b : Nat) : (gcdC a b).1 ≤ 2 * Nat.log2 b + 3 := by
  by_contra hc
  have h := C173_lame a b (2 * Nat.log2 b + 2) (by omega)
  have h2 := two_pow_le_fib (Nat.log2 b + 1)
  have h3 : Nat.fib (2 * (Nat.log2 b + 1) + 1) ≤ Nat.fib (2 * Nat.log2 b + 2 + 2) := Nat.fib_mono (by omega)
  have h4 := Nat.lt_log2_self (n := b)
  omega

/-- C173: for 64 bit numbers `gcd` makes at most 93 calls. -/
theorem C173_gcd (a b : Nat) (hb : b < W) : (gcdC a b).1 ≤ 93 := by
  by_contra hc
  have h := C173_lame a b 92 (by omega)
  have e : W ≤ Nat.fib (92 + 2) := by decide +kernel
  omega

/-- Consecutive Fibonacci numbers. -/
theorem gcdC_fib_fib (n : Nat) : gcdC (Nat.fib (n + 3)) (Nat.fib (n + 2)) = (n + 2, 1) := by
  induction n with
  | zero =>
    have e2 : Nat.fib (0 + 2) = 1 := by decide
    have e3 : Nat.fib (0 + 3) = 2 := by decide
    rw [e2, e3, gcdC_pos 2 (by decide), gcdC_zero]
  | succ n ih =>
    have hb : Nat.fib (n + 1 + 2) ≠ 0 := Nat.ne_of_gt (Nat.fib_pos.2 (by omega))
    rw [gcdC_pos _ hb]
    have e : Nat.fib (n + 1 + 3) = Nat.fib (n + 2) + Nat.fib (n + 3) := Nat.fib_add_two
    have hlt : Nat.fib (n + 2) < Nat.fib (n + 3) := Nat.fib_lt_fib_succ (by omega)
    have em : Nat.fib (n + 1 + 3) % Nat.fib (n + 1 + 2) = Nat.fib (n + 2) := by
      rw [e, Nat.add_mod_right, Nat.mod_eq_of_lt hlt]
    rw [em, ih]

/-- Both bounds are reached: the calls for consecutive Fibonacci numbers, and two 64 bit numbers that need 93. -/
theorem C173_gcd_tight : (∀ n, (gcdC (Nat.fib (n + 3)) (Nat.fib (n + 2))).1 = n + 2) ∧
    (∀ n, (gcdC (Nat.fib (n + 2)) (Nat.fib (n + 3))).1 = n + 3) ∧
    Nat.fib 93 < W ∧ (gcdC (Nat.fib 92) (Nat.fib 93)).1 = 93 := by
  have h2 : ∀ n, (gcdC (Nat.fib (n + 2)) (Nat.fib (n + 3))).1 = n + 3 := by
    intro n
    have hb : Nat.fib (n + 3) ≠ 0 := Nat.ne_of_gt (Nat.fib_pos.2 (by omega))
    have hlt : Nat.fib (n + 2) < Nat.fib (n + 3) := Nat.fib_lt_fib_succ (by omega)
    rw [gcdC_pos _ hb, Nat.mod_eq_of_lt hlt, gcdC_fib_fib]
  exact ⟨fun n => by rw [gcdC_fib_fib], h2, by decide +kernel, h2 90⟩

/-- C173: `divisors_of` takes `√n` rounds, or one less, and never more than 2^32 - 1; it returns at most two divisors for each. -/
theorem C173_divisors (n s : Nat) (hW : n < W) (hs : SqrtCast n s) :
    Nat.sqrt n ≤ (divisorsOfC s n).1 + 1 ∧ (divisorsOfC s n).1 ≤ Nat.sqrt n ∧ (divisorsOfC s n).1 ≤ 2 ^ 32 - 1 ∧
    (divisorsOfC s n).2.length ≤ 2 * (divisorsOfC s n).1 := by
  obtain ⟨⟨h1, h2⟩, h3⟩ := goodRoot_of_sqrtCast hW hs
  unfold divisorsOfC
  rw [divLoopC_eq]
  simp only
  have hlen : ∀ k ii, (divLoop n k ii).length ≤ 2 * k := by
    intro k
    induction k with
    | zero => intro ii; exact Nat.le_refl _
    | succ k ih =>
      intro ii
      have := ih (ii + 1)
      simp only [divLoop, List.length_append]
      have : (if n % ii = 0 then ii :: (if ii * ii % W ≠ n then [n / ii] else []) else []).length ≤ 2 := by
        split
        · split <;> simp
        · simp
      omega
  refine ⟨by omega, ?_, by omega, hlen _ _⟩
  rcases h2 with h2 | h2
  · have h4 : (s - 1) * (s - 1) ≤ n := Nat.le_of_lt (Nat.lt_of_le_of_lt (Nat.mul_le_mul_right _ (Nat.sub_le s 1)) h2)
    have h5 := Nat.le_sqrt.2 h4
    omega
  · omega

example : gcdC 48 36 = (3, 12) := by decide +kernel
example : gcdC 36 48 = (4, 12) := by decide +kernel
-- consecutive Fibonacci numbers
example : (gcdC 89 55).1 = 10 ∧ 2 * Nat.log2 55 + 3 = 13 := by decide +kernel
-- all rounds are needed for a square: 2, …, 12
example : divisorsOfC 12 144 = (11, [2, 72, 3, 48, 4, 36, 6, 24, 8, 18, 9, 16, 12]) := by decide +kernel

end Verif.Tools
