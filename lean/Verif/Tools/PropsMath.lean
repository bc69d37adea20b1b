import Verif.Tools.Model
import Mathlib.Data.Nat.Sqrt
import Mathlib.Tactic.Ring
import Mathlib.Tactic.Linarith
import Mathlib.Order.Nat
import Mathlib.Algebra.BigOperators.Group.List.Basic

/-
C78-C81: divisors.h, math_operation.h, enum_factory.h.
-/

namespace Verif.Tools

/-! ### C78 -/

/-- C78: `gcd` returns the greatest common divisor (and terminates: it is a total function). -/
theorem C78_gcd (a b : Nat) : gcd a b = Nat.gcd a b := by
  induction a, b using gcd.induct with
  | case1 a => rw [gcd]; simp
  | case2 a b h ih => rw [gcd, dif_neg h, ih, Nat.gcd_comm b, ← Nat.gcd_rec, Nat.gcd_comm]

/-- C78 without reference to the library's gcd. -/
theorem C78_greatest (a b : Nat) :
    gcd a b ∣ a ∧ gcd a b ∣ b ∧ (∀ d, d ∣ a → d ∣ b → d ∣ gcd a b) ∧
    (0 < a ∨ 0 < b → ∀ d, d ∣ a → d ∣ b → d ≤ gcd a b) ∧ gcd 0 0 = 0 := by
  rw [C78_gcd]
  refine ⟨Nat.gcd_dvd_left _ _, Nat.gcd_dvd_right _ _, fun d => Nat.dvd_gcd, fun h d ha hb => ?_, by rw [C78_gcd]; rfl⟩
  refine Nat.le_of_dvd ?_ (Nat.dvd_gcd ha hb)
  rcases h with h | h
  · exact Nat.gcd_pos_of_pos_left _ h
  · exact Nat.gcd_pos_of_pos_right _ h

/-- C78: no intermediate value leaves the 64-bit range. -/
theorem C78_no_overflow (a b : Nat) (ha : a < W) (hb : b < W) : gcd a b < W := by
  rw [C78_gcd]
  by_cases h : a = 0
  · subst h; simpa using hb
  · exact Nat.lt_of_le_of_lt (Nat.gcd_le_left _ (Nat.pos_of_ne_zero h)) ha

example : gcd 84 36 = 12 := by decide +kernel

/-! ### C79 -/

theorem mem_divLoop (n d : Nat) : ∀ k ii, d ∈ divLoop n k ii ↔
    ∃ j, ii ≤ j ∧ j < ii + k ∧ n % j = 0 ∧ (d = j ∨ (j * j % W ≠ n ∧ d = n / j)) := by
  intro k
  induction k with
  | zero => intro ii; simp only [divLoop, List.not_mem_nil, false_iff]; rintro ⟨j, h1, h2, _⟩; omega
  | succ k ih =>
    intro ii
    simp only [divLoop, List.mem_append, ih]
    constructor
    · rintro (h | ⟨j, h1, h2, h3, h4⟩)
      · split at h
        · rename_i hd
          refine ⟨ii, Nat.le_refl _, by omega, hd, ?_⟩
          split at h
          · rename_i hne
            simp only [List.mem_cons, List.not_mem_nil, or_false] at h
            rcases h with h | h
            · exact Or.inl h
            · exact Or.inr ⟨hne, h⟩
          · simp only [List.mem_cons, List.not_mem_nil, or_false] at h
            exact Or.inl h
        · simp at h
      · exact ⟨j, by omega, by omega, h3, h4⟩
    · rintro ⟨j, h1, h2, h3, h4⟩
      by_cases hj : j = ii
      · subst hj
        left
        rw [if_pos h3]
        rcases h4 with h | ⟨h, h'⟩
        · simp [h]
        · simp [h, h']
      · exact Or.inr ⟨j, by omega, by omega, h3, h4⟩

/-- Accuracy demanded of `static_cast<uint64_t>(std::sqrt(n))`: it is at least the integer square root and exceeds the
real square root by less than one half. -/
def GoodRoot (n s : Nat) : Prop := Nat.sqrt n ≤ s ∧ (s * (s - 1) < n ∨ s = 0)

/-- A divisor within the loop is at most its cofactor. -/
theorem cofactor_ge {n s j q : Nat} (hs : s * (s - 1) < n ∨ s = 0) (h2 : 2 ≤ j) (hj : j ≤ s) (hn : n = j * q) : j ≤ q := by
  rcases hs with hs | hs
  · by_contra hlt
    have h1 : q ≤ j - 1 := by omega
    have h3 : j * q ≤ j * (j - 1) := Nat.mul_le_mul_left _ h1
    have h4 : j * (j - 1) ≤ s * (s - 1) := Nat.mul_le_mul hj (by omega)
    omega
  · omega

theorem divLoop_nodup {n s : Nat} (hs : s * (s - 1) < n ∨ s = 0) (hW : n < W) : ∀ k ii, 2 ≤ ii → ii + k ≤ s + 1 →
    (divLoop n k ii).Nodup := by
  intro k
  induction k with
  | zero => intro ii _ _; simp [divLoop]
  | succ k ih =>
    intro ii h2 hk
    simp only [divLoop]
    rw [List.nodup_append]
    refine ⟨?_, ih (ii + 1) (by omega) (by omega), ?_⟩
    · split
      · rename_i hd
        obtain ⟨q, hq⟩ := Nat.dvd_of_mod_eq_zero hd
        have hle := cofactor_ge hs h2 (by omega) hq
        split
        · rename_i hne
          have hdiv : n / ii = q := by rw [hq]; exact Nat.mul_div_cancel_left _ (by omega)
          have : ii ≠ q := by
            rintro rfl
            rw [← hq] at hne
            exact hne (Nat.mod_eq_of_lt hW)
          simp [hdiv, this]
        · simp
      · simp
    · intro a ha b hb
      rw [mem_divLoop] at hb
      obtain ⟨j, hj1, hj2, hj3, hj4⟩ := hb
      obtain ⟨q', hq'⟩ := Nat.dvd_of_mod_eq_zero hj3
      have hle' := cofactor_ge hs (show 2 ≤ j by omega) (by omega) hq'
      have hdiv' : n / j = q' := by rw [hq']; exact Nat.mul_div_cancel_left _ (by omega)
      split at ha
      · rename_i hd
        obtain ⟨q, hq⟩ := Nat.dvd_of_mod_eq_zero hd
        have hle := cofactor_ge hs h2 (by omega) hq
        have hdiv : n / ii = q := by rw [hq]; exact Nat.mul_div_cancel_left _ (by omega)
        have hlt : q' < q := by
          by_contra hc
          have : ii * q < j * q' := by
            calc ii * q ≤ ii * q' := Nat.mul_le_mul_left _ (by omega)
              _ < j * q' := Nat.mul_lt_mul_of_pos_right (by omega) (by omega)
          omega
        have ha' : a = ii ∨ a = q := by
          split at ha <;> simp [hdiv] at ha <;> omega
        rw [hdiv'] at hj4
        omega
      · simp at ha

theorem mem_divisors {n s d : Nat} (hs : GoodRoot n s) (hW : n < W) :
    d ∈ divLoop n (s + 1 - 2) 2 ↔ 1 < d ∧ d < n ∧ d ∣ n := by
  rw [mem_divLoop]
  obtain ⟨h1, hs⟩ := hs
  constructor
  · rintro ⟨j, hj1, hj2, hj3, hj4⟩
    obtain ⟨q, hq⟩ := Nat.dvd_of_mod_eq_zero hj3
    have hle := cofactor_ge hs hj1 (by omega) hq
    have hdiv : n / j = q := by rw [hq]; exact Nat.mul_div_cancel_left _ (by omega)
    have hjn : j < n := by
      have : j * 2 ≤ j * q := Nat.mul_le_mul_left _ (by omega)
      omega
    have hqn : q < n := by
      have : 2 * q ≤ j * q := Nat.mul_le_mul_right _ (by omega)
      omega
    rw [hdiv] at hj4
    rcases hj4 with rfl | ⟨_, rfl⟩
    · exact ⟨by omega, hjn, ⟨q, hq⟩⟩
    · exact ⟨by omega, hqn, ⟨j, by rw [hq, Nat.mul_comm]⟩⟩
  · rintro ⟨hd1, hdn, q, hq⟩
    by_cases hds : d ≤ s
    · exact ⟨d, by omega, by omega, Nat.mod_eq_zero_of_dvd ⟨q, hq⟩, Or.inl rfl⟩
    · have hq0 : q ≠ 0 := by rintro rfl; omega
      have hq1 : q ≠ 1 := by rintro rfl; omega
      have hqs : q ≤ Nat.sqrt n := by
        rw [Nat.le_sqrt]
        by_contra hc
        have h3 : Nat.sqrt n < d := by omega
        rw [Nat.sqrt_lt] at h3
        have h4 : d < q := by
          by_contra hh
          have : q * q ≤ d * q := Nat.mul_le_mul_right _ (by omega)
          omega
        have : d * d ≤ d * q := Nat.mul_le_mul_left _ (by omega)
        omega
      have hdiv : n / q = d := by rw [hq]; exact Nat.mul_div_cancel _ (by omega)
      refine ⟨q, by omega, by omega, Nat.mod_eq_zero_of_dvd ⟨d, by rw [hq, Nat.mul_comm]⟩, Or.inr ⟨?_, hdiv.symm⟩⟩
      have hlt : q * q < d * q := Nat.mul_lt_mul_of_pos_right (by omega) (by omega)
      rw [Nat.mod_eq_of_lt (by omega)]
      omega

/-- C79: `divisors_of n` lists every divisor `d` of `n` with `1 < d < n`, exactly once, and nothing else; with sorting
it is strictly increasing. -/
theorem C79_divisors (n s : Nat) (sorting : Bool) (hW : n < W) (hs : GoodRoot n s) :
    (divisorsOf s n sorting).Nodup ∧ (∀ d, d ∈ divisorsOf s n sorting ↔ 1 < d ∧ d < n ∧ d ∣ n) ∧
    (sorting = true → (divisorsOf s n sorting).Pairwise (· < ·)) := by
  have hnd := divLoop_nodup hs.2 hW (s + 1 - 2) 2 (Nat.le_refl _)
  have hnd : (divLoop n (s + 1 - 2) 2).Nodup := by
    by_cases h : s + 1 ≤ 2
    · rw [show s + 1 - 2 = 0 by omega]; simp [divLoop]
    · exact hnd (by omega)
  cases sorting with
  | false => exact ⟨hnd, fun d => mem_divisors hs hW, by simp⟩
  | true =>
    have hp : (divisorsOf s n true).Perm (divLoop n (s + 1 - 2) 2) := List.mergeSort_perm _ _
    have hnd' := hp.nodup_iff.mpr hnd
    refine ⟨hnd', fun d => by rw [hp.mem_iff]; exact mem_divisors hs hW, fun _ => ?_⟩
    have hsorted : (divisorsOf s n true).Pairwise (· ≤ ·) := by
      have := List.pairwise_mergeSort (le := fun (a b : Nat) => decide (a ≤ b)) (by intro a b c; simp; omega)
        (by intro a b; simp; omega) (divLoop n (s + 1 - 2) 2)
      exact this.imp (by simp)
    have := hsorted.and hnd'
    exact this.imp (by rintro a b ⟨h1, h2⟩; omega)

/-- The exact integer square root is a good root, so `C79_divisors` applies to every `n` for which the floating point
computation is exact (in particular below `2^52`). -/
theorem goodRoot_sqrt (n : Nat) : GoodRoot n (Nat.sqrt n) := by
  refine ⟨Nat.le_refl _, ?_⟩
  by_cases h : Nat.sqrt n = 0
  · exact Or.inr h
  · left
    have h1 := Nat.sqrt_le n
    have : Nat.sqrt n * (Nat.sqrt n - 1) < Nat.sqrt n * Nat.sqrt n := Nat.mul_lt_mul_of_pos_left (by omega) (by omega)
    omega

example : divisorsOf 6 37 false = [] := by decide +kernel
example : divisorsOf 6 36 false = [2, 18, 3, 12, 4, 9, 6] := by decide +kernel

/-! ### C80 -/

/-- C80: the variadic sum and product, in any (semi)ring, are the sum and product of the arguments. -/
theorem C80_sum {α} [AddMonoid α] (x : α) (args : List α) : foldOp (· + ·) x args = (x :: args).sum := by
  induction args generalizing x with
  | nil => simp [foldOp]
  | cons y rest ih =>
    cases rest with
    | nil => simp [foldOp]
    | cons z rest => simp only [foldOp]; rw [ih]; simp

theorem C80_product {α} [Monoid α] (x : α) (args : List α) : foldOp (· * ·) x args = (x :: args).prod := by
  induction args generalizing x with
  | nil => simp [foldOp]
  | cons y rest ih =>
    cases rest with
    | nil => simp [foldOp]
    | cons z rest => simp only [foldOp]; rw [ih]; simp

theorem extremum_spec {α} (better : α → α → Bool) (le : α → α → Prop) (hrefl : ∀ a, le a a)
    (htrans : ∀ a b c, le a b → le b c → le a c)
    (h1 : ∀ a b, better a b = true → le a b) (h2 : ∀ a b, better a b = false → le b a) (x : α) (rest : List α) :
    extremum better x rest ∈ x :: rest ∧ ∀ y ∈ x :: rest, le (extremum better x rest) y := by
  unfold extremum
  induction rest generalizing x with
  | nil => simp [hrefl]
  | cons z rest ih =>
    simp only [List.foldl_cons]
    cases hb : better z x with
    | true =>
      obtain ⟨m, hm⟩ := ih z
      simp only [if_true]
      refine ⟨by simp only [List.mem_cons] at m ⊢; tauto, fun y hy => ?_⟩
      simp only [List.mem_cons] at hy
      rcases hy with rfl | rfl | hy
      · exact htrans _ _ _ (hm z (by simp)) (h1 _ _ hb)
      · exact hm _ (by simp)
      · exact hm _ (by simp [hy])
    | false =>
      obtain ⟨m, hm⟩ := ih x
      simp only [Bool.false_eq_true, if_false]
      refine ⟨by simp only [List.mem_cons] at m ⊢; tauto, fun y hy => ?_⟩
      simp only [List.mem_cons] at hy
      rcases hy with rfl | rfl | hy
      · exact hm _ (by simp)
      · exact htrans _ _ _ (hm x (by simp)) (h2 _ _ hb)
      · exact hm _ (by simp [hy])

/-- C80: the variadic minimum / maximum is one of the arguments and bounds all of them. -/
theorem C80_minimum {α} [LinearOrder α] (x : α) (rest : List α) :
    extremum (fun a b => decide (a < b)) x rest ∈ x :: rest ∧
      ∀ y ∈ x :: rest, extremum (fun a b => decide (a < b)) x rest ≤ y :=
  extremum_spec _ (· ≤ ·) (le_refl ·) (fun _ _ _ => le_trans) (by simpa using fun a b h => le_of_lt h) (by simp) x rest

theorem C80_maximum {α} [LinearOrder α] (x : α) (rest : List α) :
    extremum (fun a b => decide (b < a)) x rest ∈ x :: rest ∧
      ∀ y ∈ x :: rest, y ≤ extremum (fun a b => decide (b < a)) x rest :=
  extremum_spec _ (· ≥ ·) (le_refl ·) (fun _ _ _ h1 h2 => le_trans h2 h1) (by simpa using fun a b h => le_of_lt h)
    (by simp) x rest

example : foldOp (· + ·) 1 [2, 3, 4, 5] = 15 := by decide
example : extremum (fun a b : Nat => decide (a < b)) 4 [2, 3, 1, 5] = 1 := by decide

/-! ### C81 -/

theorem fromLoop_spec (name : Nat → String) (str : String) (maximum : Nat) : ∀ k value,
    (∀ v, value ≤ v → v < value + k → name v ≠ str) ∧ fromLoop name str maximum k value = maximum ∨
    ∃ v, value ≤ v ∧ v < value + k ∧ name v = str ∧ (∀ u, value ≤ u → u < v → name u ≠ str) ∧
      fromLoop name str maximum k value = v := by
  intro k
  induction k with
  | zero => intro value; left; exact ⟨fun v h1 h2 => by omega, rfl⟩
  | succ k ih =>
    intro value
    simp only [fromLoop]
    by_cases h : str = name value
    · right
      exact ⟨value, Nat.le_refl _, by omega, h.symm, fun u h1 h2 => by omega, by rw [if_pos h]⟩
    · rw [if_neg h]
      rcases ih (value + 1) with ⟨h1, h2⟩ | ⟨v, h1, h2, h3, h4, h5⟩
      · left
        refine ⟨fun v hv1 hv2 => ?_, h2⟩
        by_cases hv : v = value
        · subst hv; exact fun e => h e.symm
        · exact h1 v (by omega) (by omega)
      · right
        refine ⟨v, by omega, by omega, h3, fun u hu1 hu2 => ?_, h5⟩
        by_cases hu : u = value
        · subst hu; exact fun e => h e.symm
        · exact h4 u (by omega) hu2

/-- C81: with distinct names `from_string` inverts `to_string` on `[minimum, maximum)`. -/
theorem C81_inverse (name : Nat → String) (minimum maximum v : Nat)
    (hdist : ∀ u w, minimum ≤ u → u < maximum → minimum ≤ w → w < maximum → name u = name w → u = w)
    (h1 : minimum ≤ v) (h2 : v < maximum) : fromString name minimum maximum (name v) = v := by
  unfold fromString
  rcases fromLoop_spec name (name v) maximum (maximum - minimum) minimum with ⟨h, _⟩ | ⟨u, hu1, hu2, hu3, _, hu5⟩
  · exact absurd rfl (h v h1 (by omega))
  · rw [hu5]; exact hdist u v hu1 (by omega) h1 h2 hu3

/-- C81: a string that is no name in the range yields `maximum`. -/
theorem C81_unknown (name : Nat → String) (minimum maximum : Nat) (str : String)
    (h : ∀ v, minimum ≤ v → v < maximum → name v ≠ str) : fromString name minimum maximum str = maximum := by
  unfold fromString
  rcases fromLoop_spec name str maximum (maximum - minimum) minimum with ⟨_, h'⟩ | ⟨u, hu1, hu2, hu3, _, _⟩
  · exact h'
  · exact absurd hu3 (h u hu1 (by omega))

/-- C81 with repeated names: the first value with that name. -/
theorem C81_first (name : Nat → String) (minimum maximum v : Nat) (h1 : minimum ≤ v) (h2 : v < maximum) :
    ∃ u, fromString name minimum maximum (name v) = u ∧ minimum ≤ u ∧ u ≤ v ∧ name u = name v ∧
      ∀ w, minimum ≤ w → w < u → name w ≠ name v := by
  unfold fromString
  rcases fromLoop_spec name (name v) maximum (maximum - minimum) minimum with ⟨h, _⟩ | ⟨u, hu1, hu2, hu3, hu4, hu5⟩
  · exact absurd rfl (h v h1 (by omega))
  · refine ⟨u, hu5, hu1, ?_, hu3, hu4⟩
    by_contra hc
    exact hu4 v h1 (by omega) rfl

example : fromString (fun v => ["first", "second", "third", "MAX"].getD v "") 0 3 "third" = 2 := by decide
example : fromString (fun v => ["first", "second", "third", "MAX"].getD v "") 1 3 "first" = 3 := by decide

end Verif.Tools
