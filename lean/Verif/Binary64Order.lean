import Verif.Binary64

/-! The order of `double`s, and that rounding keeps it. -/

namespace Verif

/-- `a < b`: false if one of them is a NaN. -/
def Dbl.lt : Dbl → Dbl → Bool
  | .nan, _ => false
  | _, .nan => false
  | .inf s, .inf t => s && !t
  | .inf s, .fin _ => s
  | .fin _, .inf t => !t
  | .fin a, .fin b => decide (a < b)

/-- `a <= b`: false if one of them is a NaN. -/
def Dbl.leB : Dbl → Dbl → Bool
  | .nan, _ => false
  | _, .nan => false
  | .inf s, .inf t => s || !t
  | .inf s, .fin _ => s
  | .fin _, .inf t => !t
  | .fin a, .fin b => decide (a ≤ b)

def Dbl.Le (a b : Dbl) : Prop := Dbl.leB a b = true

namespace Dbl

theorem Le.refl {a : Dbl} (h : a ≠ .nan) : Le a a := by
  cases a with
  | fin n => simp [Le, leB]
  | inf s => cases s <;> simp [Le, leB]
  | nan => exact absurd rfl h

theorem Le.trans {a b c : Dbl} (h : Le a b) (h' : Le b c) : Le a c := by
  cases a <;> cases b <;> cases c <;> simp_all [Le, leB]
  · omega
  · next s t u => cases s <;> cases t <;> cases u <;> simp_all

theorem Le.antisymm {a b : Dbl} (h : Le a b) (h' : Le b a) : a = b := by
  cases a <;> cases b <;> simp_all [Le, leB]
  · omega
  · next s t => cases s <;> cases t <;> simp_all

theorem lt_false {a b : Dbl} (ha : a ≠ .nan) (hb : b ≠ .nan) (h : lt a b = false) : Le b a := by
  cases a <;> cases b <;> simp_all [lt, Le, leB]
  next s t => cases s <;> cases t <;> simp_all

theorem lt_true {a b : Dbl} (h : lt a b = true) : Le a b := by
  cases a <;> cases b <;> simp_all [lt, Le, leB]
  omega

theorem Le.left {a b : Dbl} (h : Le a b) : a ≠ .nan := by
  rintro rfl; simp [Le, leB] at h

theorem Le.right {a b : Dbl} (h : Le a b) : b ≠ .nan := by
  rintro rfl; cases a <;> simp [Le, leB] at h

end Dbl

/-- The result of rounding has 53 significant bits. -/
theorem roundNat_bits (n : Nat) : ∃ m e : Nat, m < 2 ^ 53 ∧ roundNat n = m * 2 ^ e := by
  have hq : n / 2 ^ (Nat.log2 n - 52) < 2 ^ 53 := by
    rw [Nat.div_lt_iff_lt_mul (by positivity), ← Nat.pow_add]
    by_cases hn : n = 0
    · subst hn; positivity
    · rw [← Nat.log2_lt hn]; omega
  unfold roundNat
  simp only
  generalize Nat.log2 n - 52 = k at *
  generalize n / 2 ^ k = q at *
  split
  · by_cases h : q + 1 < 2 ^ 53
    · exact ⟨_, _, h, rfl⟩
    · refine ⟨1, 53 + k, by norm_num, ?_⟩
      rw [show q + 1 = 2 ^ 53 by omega, Nat.pow_add, Nat.one_mul]
  · exact ⟨_, _, hq, rfl⟩

theorem roundNat_mono {a b : Nat} (h : a ≤ b) : roundNat a ≤ roundNat b := by
  by_contra hc
  by_cases hab : a = b
  · subst hab; omega
  obtain ⟨m, e, hm, he⟩ := roundNat_bits a
  obtain ⟨m', e', hm', he'⟩ := roundNat_bits b
  have h1 := roundNat_nearest a (e := e') hm'
  have h2 := roundNat_nearest b (e := e) hm
  rw [← he'] at h1
  rw [← he] at h2
  omega

theorem roundNat_zero : roundNat 0 = 0 := by decide

namespace Dbl

theorem round_mono {a b : Int} (h : a ≤ b) : Le (round a) (round b) := by
  have m1 : a.natAbs ≤ b.natAbs → roundNat a.natAbs ≤ roundNat b.natAbs := roundNat_mono
  have m2 : b.natAbs ≤ a.natAbs → roundNat b.natAbs ≤ roundNat a.natAbs := roundNat_mono
  unfold round
  generalize roundNat a.natAbs = x at *
  generalize roundNat b.natAbs = y at *
  generalize maxDbl = M at *
  by_cases hx : M < x
  · rw [if_pos hx]
    by_cases hy : M < y
    · rw [if_pos hy]
      simp only [Le, leB, Bool.or_eq_true, Bool.not_eq_true', decide_eq_true_eq, decide_eq_false_iff_not]
      omega
    · rw [if_neg hy]
      simp only [Le, leB, Bool.or_eq_true, Bool.not_eq_true', decide_eq_true_eq]
      by_contra hc
      have := m1 (by omega)
      omega
  · rw [if_neg hx]
    by_cases hy : M < y
    · rw [if_pos hy]
      simp only [Le, leB, Bool.not_eq_true', decide_eq_false_iff_not]
      intro hc
      have := m2 (by omega)
      omega
    · rw [if_neg hy]
      simp only [Le, leB, decide_eq_true_eq]
      split <;> split <;> omega

theorem round_ne_nan (n : Int) : round n ≠ .nan := by
  unfold round; split <;> simp

theorem add_fin (a b : Int) : add (.fin a) (.fin b) = round (a + b) := rfl

theorem add_fin_mono {a b : Int} (c : Int) (h : a ≤ b) : Le (add (.fin a) (.fin c)) (add (.fin b) (.fin c)) := by
  rw [add_fin, add_fin]
  have h' : a + c ≤ b + c := Int.add_le_add_right h c
  exact round_mono h'

/-- Addition keeps the order, unless it gives a NaN. -/
theorem add_mono {a b c : Dbl} (h : Le a b) (ha : add a c ≠ .nan) (hb : add b c ≠ .nan) : Le (add a c) (add b c) := by
  cases c with
  | nan => cases a <;> simp [add] at ha
  | inf t =>
    cases a <;> cases b <;> simp only [Le, leB, Bool.not_eq_true', Bool.false_eq_true, decide_eq_true_eq] at h
    · simp [add, Le, leB]
    · next s => subst h; cases t <;> simp [add, Le, leB] at *
    · next s _ => subst h; cases t <;> simp [add, Le, leB] at *
    · next s u => cases s <;> cases t <;> cases u <;> simp [add, Le, leB] at *
  | fin c =>
    cases a <;> cases b <;> simp only [Le, leB, Bool.not_eq_true', Bool.false_eq_true, decide_eq_true_eq] at h
    · next x y =>
      exact add_fin_mono c h
    · next s =>
      subst h
      simp only [add]
      have := round_ne_nan
      generalize hr : round _ = r
      cases r with
      | nan => exact absurd hr (this _)
      | inf t => simp [Le, leB]
      | fin n => simp [Le, leB]
    · next s _ =>
      subst h
      simp only [add]
      have := round_ne_nan
      generalize hr : round _ = r
      cases r with
      | nan => exact absurd hr (this _)
      | inf t => simp [Le, leB]
      | fin n => simp [Le, leB]
    · next s u => simpa [add, Le, leB] using h

end Dbl
end Verif
