import Verif.Common
import Mathlib.Tactic.Ring
import Mathlib.Tactic.Linarith

/-!
Addition and subtraction of `double` (IEEE 754 binary64, round to nearest, ties to even), as the compilers of a 64-bit platform do it.

Every finite double is a whole multiple of the smallest positive one, `2^-1074`, and is represented by that whole number.  The sign of zero
is left out (it is not visible through addition, subtraction, comparison and conversion to `bool`).
-/

namespace Verif

/-- Rounds to 53 significant bits, ties to even. -/
def roundNat (n : Nat) : Nat :=
  let e := Nat.log2 n - 52
  let q := n / 2 ^ e
  let r := n % 2 ^ e
  (if 2 ^ e < 2 * r ∨ (2 * r = 2 ^ e ∧ q % 2 = 1) then q + 1 else q) * 2 ^ e

/-- The greatest finite double, `(2^53 - 1) * 2^971`, in units of `2^-1074`. -/
def maxDbl : Nat := (2 ^ 53 - 1) * 2 ^ 2045

/-- A `double` (the sign of zero and the payload of a NaN left out). -/
inductive Dbl where
  | fin (n : Int)
  | inf (negative : Bool)
  | nan
deriving DecidableEq, Repr

namespace Dbl

/-- The double for an exact result. -/
def round (n : Int) : Dbl :=
  if maxDbl < roundNat n.natAbs then .inf (decide (n < 0))
  else .fin (if n < 0 then -(roundNat n.natAbs : Int) else roundNat n.natAbs)

/-- `a + b`. -/
def add : Dbl → Dbl → Dbl
  | .nan, _ => .nan
  | _, .nan => .nan
  | .inf s, .inf t => if s = t then .inf s else .nan
  | .inf s, .fin _ => .inf s
  | .fin _, .inf t => .inf t
  | .fin a, .fin b => round (a + b)

/-- `-a`. -/
def neg : Dbl → Dbl
  | .nan => .nan
  | .inf s => .inf (!s)
  | .fin a => .fin (-a)

/-- `a - b`. -/
def sub (a b : Dbl) : Dbl := add a (neg b)

/-- The conversion to `bool`: `a != 0`. -/
def truthy : Dbl → Bool
  | .fin n => decide (n ≠ 0)
  | _ => true

end Dbl

/-- The finite doubles: whole numbers of 53 bits, times a power of two, up to the greatest. -/
def IsDbl (n : Int) : Prop := (∃ m e : Nat, m < 2 ^ 53 ∧ n.natAbs = m * 2 ^ e) ∧ n.natAbs ≤ maxDbl

/-! ### What rounding does -/

theorem roundNat_exact {m e : Nat} (hm : m < 2 ^ 53) : roundNat (m * 2 ^ e) = m * 2 ^ e := by
  rcases Nat.eq_zero_or_pos m with rfl | hp
  · simp [roundNat]
  have hn : m * 2 ^ e ≠ 0 := Nat.mul_ne_zero (by omega) (by positivity)
  have hl : Nat.log2 (m * 2 ^ e) - 52 ≤ e := by
    have : Nat.log2 (m * 2 ^ e) < 53 + e := by
      rw [Nat.log2_lt hn, Nat.pow_add]
      exact Nat.mul_lt_mul_of_pos_right hm (by positivity)
    omega
  unfold roundNat
  simp only
  generalize Nat.log2 (m * 2 ^ e) - 52 = k at hl
  have hd : 2 ^ k ∣ m * 2 ^ e := Dvd.dvd.mul_left (Nat.pow_dvd_pow 2 hl) m
  rw [Nat.mod_eq_zero_of_dvd hd, if_neg]
  · exact Nat.div_mul_cancel hd
  · have : 0 < 2 ^ k := by positivity
    omega

/-- The nearest multiple of `u`. -/
theorem nearestMul (u n k : Nat) (hu : 0 < u) (b : Bool) :
    2 * ((n : Int) - ((if u < 2 * (n % u) ∨ (2 * (n % u) = u ∧ b = true) then n / u + 1 else n / u) * u : Nat)).natAbs ≤ u ∧
    ((n : Int) - ((if u < 2 * (n % u) ∨ (2 * (n % u) = u ∧ b = true) then n / u + 1 else n / u) * u : Nat)).natAbs ≤ ((n : Int) - (k * u : Nat)).natAbs := by
  have hdm := Nat.div_add_mod n u
  have hlt := Nat.mod_lt n hu
  generalize n / u = q at *
  generalize n % u = r at *
  subst hdm
  rw [Nat.mul_comm u q]
  have key : ∀ c : Nat, (c ≤ q ∧ ∃ t : Nat, c + t = q ∧ c * u + t * u = q * u) ∨ (q + 1 ≤ c ∧ ∃ t : Nat, q + 1 + t = c ∧ q * u + u + t * u = c * u) := by
    intro c
    rcases Nat.lt_or_ge q c with h | h
    · obtain ⟨t, rfl⟩ := Nat.exists_eq_add_of_le (show q + 1 ≤ c from h)
      exact .inr ⟨h, t, rfl, by ring⟩
    · obtain ⟨t, rfl⟩ := Nat.exists_eq_add_of_le h
      exact .inl ⟨h, t, rfl, by ring⟩
  split
  · next h =>
    have e : (q + 1) * u = q * u + u := by ring
    rw [e]
    rcases key k with ⟨_, t, _, e'⟩ | ⟨_, t, _, e'⟩
    · omega
    · omega
  · next h =>
    rcases key k with ⟨_, t, _, e'⟩ | ⟨_, t, _, e'⟩
    · omega
    · omega

theorem roundNat_mul (n k : Nat) : 2 * ((n : Int) - roundNat n).natAbs ≤ 2 ^ (Nat.log2 n - 52) ∧
    ((n : Int) - roundNat n).natAbs ≤ ((n : Int) - (k * 2 ^ (Nat.log2 n - 52) : Nat)).natAbs := by
  have h := nearestMul (2 ^ (Nat.log2 n - 52)) n k (by positivity) (decide (n / 2 ^ (Nat.log2 n - 52) % 2 = 1))
  simp only [decide_eq_true_eq] at h
  exact h

/-- Rounding gives a nearest number of 53 significant bits. -/
theorem roundNat_nearest (n : Nat) {m e : Nat} (hm : m < 2 ^ 53) :
    ((n : Int) - roundNat n).natAbs ≤ ((n : Int) - (m * 2 ^ e : Nat)).natAbs := by
  by_cases hle : Nat.log2 n - 52 ≤ e
  · obtain ⟨t, rfl⟩ := Nat.exists_eq_add_of_le hle
    have e' : m * 2 ^ (Nat.log2 n - 52 + t) = m * 2 ^ t * 2 ^ (Nat.log2 n - 52) := by rw [Nat.pow_add]; ring
    rw [e']
    exact (roundNat_mul n (m * 2 ^ t)).2
  · have h52 : 52 < Nat.log2 n := by omega
    have hn : n ≠ 0 := by rintro rfl; simp at h52
    have hlo : 2 ^ Nat.log2 n ≤ n := Nat.log2_self_le hn
    have hsmall : m * 2 ^ e ≤ 2 ^ Nat.log2 n := by
      have : m * 2 ^ e ≤ 2 ^ 53 * 2 ^ e := Nat.mul_le_mul_right _ (Nat.le_of_lt hm)
      rw [← Nat.pow_add] at this
      exact this.trans (Nat.pow_le_pow_right (by omega) (by omega))
    have := (roundNat_mul n (2 ^ 52)).2
    rw [← Nat.pow_add, show 52 + (Nat.log2 n - 52) = Nat.log2 n by omega] at this
    generalize 2 ^ Nat.log2 n = v at *
    generalize m * 2 ^ e = w at *
    omega

/-- The relative error of rounding is at most `2^-53`. -/
theorem roundNat_error (n : Nat) : 2 ^ 53 * ((n : Int) - roundNat n).natAbs ≤ n := by
  have h := (roundNat_mul n 0).1
  by_cases h52 : Nat.log2 n ≤ 52
  · rw [show Nat.log2 n - 52 = 0 by omega] at h
    have : ((n : Int) - roundNat n).natAbs = 0 := by omega
    rw [this]
    omega
  · have hn : n ≠ 0 := by rintro rfl; simp at h52
    have hlo : 2 ^ Nat.log2 n ≤ n := Nat.log2_self_le hn
    have e : 2 ^ 52 * 2 ^ (Nat.log2 n - 52) = 2 ^ Nat.log2 n := by
      rw [← Nat.pow_add]; congr 1; omega
    generalize ((n : Int) - roundNat n).natAbs = d at *
    generalize 2 ^ (Nat.log2 n - 52) = w at *
    generalize 2 ^ Nat.log2 n = v at *
    omega

theorem IsDbl.zero : IsDbl 0 := ⟨⟨0, 0, by norm_num, rfl⟩, by simp⟩

theorem IsDbl.neg {n : Int} (h : IsDbl n) : IsDbl (-n) := by
  unfold IsDbl at *
  rwa [Int.natAbs_neg]

/-- Whole multiples of a power of two are doubles up to `2^53` times that power. -/
theorem isDbl_mul {n : Int} {k : Nat} (hk : k ≤ 2045) (h : n.natAbs ≤ 2 ^ 53) (hb : k ≤ 2044 ∨ n.natAbs < 2 ^ 53) : IsDbl (n * 2 ^ k) := by
  have e : (n * 2 ^ k).natAbs = n.natAbs * 2 ^ k := by rw [Int.natAbs_mul, Int.natAbs_pow]; rfl
  unfold IsDbl
  rw [e]
  have hp : ∀ j, j ≤ 2045 → 2 ^ j ≤ 2 ^ 2045 := fun j hj => Nat.pow_le_pow_right (by omega) hj
  by_cases h' : n.natAbs < 2 ^ 53
  · refine ⟨⟨_, k, h', rfl⟩, ?_⟩
    exact Nat.mul_le_mul (by omega) (hp k hk)
  · have hk' := hb.resolve_right h'
    have en : n.natAbs = 2 ^ 53 := by omega
    refine ⟨⟨1, 53 + k, by norm_num, by rw [en, Nat.pow_add]; ring⟩, ?_⟩
    rw [en]
    have e1 : 2 ^ 53 * 2 ^ k ≤ 2 ^ 53 * 2 ^ 2044 := Nat.mul_le_mul_left _ (Nat.pow_le_pow_right (by omega) hk')
    refine e1.trans ?_
    unfold maxDbl
    rw [show (2 : Nat) ^ 2045 = 2 * 2 ^ 2044 by rw [← Nat.pow_succ']]
    generalize 2 ^ 2044 = w
    omega

namespace Dbl

/-- A result that is a double is not rounded. -/
theorem round_exact {n : Int} (h : IsDbl n) : round n = .fin n := by
  obtain ⟨⟨m, e, hm, he⟩, hmax⟩ := h
  unfold round
  have : roundNat n.natAbs = n.natAbs := by rw [he]; exact roundNat_exact hm
  rw [this, if_neg (by omega)]
  congr 1
  split <;> omega

theorem add_exact {a b : Int} (h : IsDbl (a + b)) : add (.fin a) (.fin b) = .fin (a + b) := round_exact h

theorem sub_exact {a b : Int} (h : IsDbl (a - b)) : sub (.fin a) (.fin b) = .fin (a - b) := by
  unfold sub neg
  rw [add_exact (by rwa [← Int.sub_eq_add_neg])]
  rw [← Int.sub_eq_add_neg]

/-- `1 + 2^53`, a tie, goes to the even neighbour `2^53`; `3 + 2^53` to `2^53 + 4`. -/
example : add (.fin 1) (.fin (2 ^ 53)) = .fin (2 ^ 53) ∧ add (.fin 3) (.fin (2 ^ 53)) = .fin (2 ^ 53 + 4) ∧
    add (.fin (-3)) (.fin (-2 ^ 53)) = .fin (-2 ^ 53 - 4) := by decide +kernel

/-- The greatest double plus half a unit of its last place overflows; a bit less does not. -/
example : add (.fin maxDbl) (.fin (2 ^ 2044)) = .inf false ∧ add (.fin maxDbl) (.fin (2 ^ 2044 - 1)) = .fin maxDbl := by decide +kernel

end Dbl

end Verif
