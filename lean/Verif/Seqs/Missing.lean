import Verif.Seqs.Model
import Mathlib.Tactic.Ring
import Mathlib.Tactic.Linarith

/-
Lemmas about the two searches of missing_element.h on a progression with one element removed.
-/

namespace Verif.Seqs

/-- The sequence `base 0, …, base n` without its `k`-th element. -/
def gap {α} (base : Nat → α) (n k : Nat) : List α := ((List.range (n + 1)).map base).eraseIdx k

theorem gap_length {α} (base : Nat → α) {n k : Nat} (hk : k ≤ n) : (gap base n k).length = n := by
  simp [gap, List.length_eraseIdx, show k < n + 1 by omega]

theorem rd_gap {α} (base : Nat → α) {n k i : Nat} (hi : i < n) :
    rd (gap base n k) i = .ok (base (if i < k then i else i + 1)) := by
  have : (gap base n k)[i]? = some (base (if i < k then i else i + 1)) := by
    simp only [gap, List.getElem?_eraseIdx]
    split
    · rw [List.getElem?_map, List.getElem?_range (by omega)]; rfl
    · rw [List.getElem?_map, List.getElem?_range (by omega)]; rfl
  simp [rd, this]

theorem rd_gap_ge {α} (base : Nat → α) {n k i : Nat} (hk : k ≤ n) (hi : n ≤ i) :
    rd (gap base n k) i = .ub := rd_ge (by rw [gap_length base hk]; exact hi)

/-- The positions visited by the arithmetic search, given only the number of elements and the gap. -/
def hunt (n k : Nat) : Nat → Nat → Res Bool
  | 0, _ => .exc .invalid
  | it + 1, count =>
    if count / 2 = 0 then .ok false
    else if n ≤ count / 2 then .ub
    else if count / 2 < k then hunt n k it (count + count / 2)
    else if count / 2 = k then .ok true
    else hunt n k it (count - count / 2)

/-- The same for the integer geometric search. -/
def ghunt (n k : Nat) : Nat → Nat → Res Bool
  | 0, count => if count = 0 then .ok false else .exc .invalid
  | it + 1, count =>
    if count = 0 then .ok false
    else if count / 2 = 0 ∨ count / 2 = n then .ok false
    else if n ≤ count / 2 + 1 then .ub
    else if count / 2 + 1 = k ∨ count / 2 = k then .ok true
    else if count / 2 < k then ghunt n k it (count + count / 2)
    else ghunt n k it (count - count / 2)

section Arith

variable {factor lower : Int}

theorem arithLoop_hunt (hf : factor ≠ 0) {n k : Nat} (hk : k ≤ n) (it count : Nat) :
    arithLoop (gap (fun i => lower + (i : Int) * factor) n k) factor lower it count =
      (hunt n k it count) >>= fun b => .ok (b, if b then lower + (k : Int) * factor else lower) := by
  induction it generalizing count with
  | zero => rfl
  | succ it ih =>
    simp only [arithLoop, hunt]
    by_cases h0 : count / 2 = 0
    · simp [h0]
    simp only [h0, if_false]
    by_cases h1 : n ≤ count / 2
    · rw [rd_gap_ge _ hk h1]; simp [h1]
    simp only [h1, if_false]
    rw [rd_gap _ (show count / 2 < n by omega), rd_gap _ (show count / 2 - 1 < n by omega)]
    simp only [Res.bind_ok]
    by_cases h2 : count / 2 < k
    · simp only [h2, if_true]; exact ih _
    simp only [h2, if_false]
    have hne : ¬ lower + ((count / 2 : Nat) : Int) * factor
        = lower + ((count / 2 + 1 : Nat) : Int) * factor := by
      intro h; push_cast at h; apply hf; linarith
    simp only [hne, if_false]
    by_cases h3 : count / 2 = k
    · have hlt : count / 2 - 1 < k := by omega
      simp only [hlt, if_true]
      simp only [h3, if_true, Res.bind_ok]
      have : lower + ((k - 1 : Nat) : Int) * factor = lower + (k : Int) * factor - factor := by
        have : ((k - 1 : Nat) : Int) = (k : Int) - 1 := by omega
        rw [this]; ring
      simp only [this, if_true]
    · have hlt : ¬ count / 2 - 1 < k := by omega
      simp only [hlt, if_false, h3]
      have e : count / 2 - 1 + 1 = count / 2 := by omega
      rw [e]
      have : ¬ lower + ((count / 2 : Nat) : Int) * factor
          = lower + ((count / 2 : Nat) : Int) * factor - factor := by
        intro h; apply hf; linarith
      simp only [this, if_false]
      exact ih _

theorem findArith_first {n : Nat} (hf : factor ≠ 0) (hn : 0 < n) :
    findArith (gap (fun i => lower + (i : Int) * factor) n 0) factor lower = .ok (true, lower) := by
  unfold findArith
  rw [rd_gap _ hn]
  simp [hf]

theorem findArith_hunt {n k : Nat} (hf : factor ≠ 0) (hn : 0 < n) (h0 : 0 < k) (hk : k ≤ n) :
    findArith (gap (fun i => lower + (i : Int) * factor) n k) factor lower =
      (hunt n k n n) >>= fun b => .ok (b, if b then lower + (k : Int) * factor else lower) := by
  unfold findArith
  rw [rd_gap _ hn, gap_length _ hk, arithLoop_hunt hf hk]
  simp [h0]

end Arith

section Geom

variable {factor lower : Int}

theorem pow_step_ne (hf : factor ≠ 0) (h1 : factor ≠ 1) (hl : lower ≠ 0) (a : Nat) :
    lower * factor ^ (a + 1) ≠ lower * factor ^ a := by
  intro h
  have h2 := mul_left_cancel₀ hl h
  rw [pow_succ] at h2
  exact h1 (mul_left_cancel₀ (pow_ne_zero a hf) (by rw [h2, mul_one]))

theorem geomLoop_ghunt (hf : factor ≠ 0) (h1 : factor ≠ 1) (hl : lower ≠ 0) {n k : Nat} (h0 : 0 < k) (hk : k ≤ n)
    (it count : Nat) :
    geomLoop (gap (fun i => lower * factor ^ i) n k) factor lower it count =
      (ghunt n k it count) >>= fun b => .ok (b, if b then lower * factor ^ k else lower) := by
  induction it generalizing count with
  | zero => simp only [geomLoop, ghunt]; split <;> rfl
  | succ it ih =>
    simp only [geomLoop, ghunt, gap_length _ hk]
    by_cases hc : count = 0
    · simp [hc]
    simp only [hc, if_false]
    by_cases hb : count / 2 = 0 ∨ count / 2 = n
    · simp only [hb, if_true, Res.bind_ok]; rfl
    simp only [hb, if_false]
    by_cases hu : n ≤ count / 2 + 1
    · simp only [hu, if_true]
      rw [rd_gap_ge (i := count / 2 + 1) _ hk hu]
      by_cases hq : count / 2 < n
      · rw [rd_gap _ hq]; rfl
      · rw [rd_gap_ge _ hk (by omega)]; rfl
    simp only [hu, if_false]
    rw [rd_gap _ (show count / 2 < n by omega), rd_gap _ (show count / 2 + 1 < n by omega),
      rd_gap _ (show count / 2 - 1 < n by omega)]
    simp only [Res.bind_ok]
    by_cases h2 : count / 2 + 1 = k
    · subst h2
      have a1 : count / 2 < count / 2 + 1 := by omega
      simp only [a1, lt_irrefl, if_true, if_false, true_or]
      have : lower * factor ^ (count / 2 + 1 + 1) ≠ lower * factor ^ (count / 2) * factor := by
        rw [mul_assoc, ← pow_succ]; exact pow_step_ne hf h1 hl _
      simp only [ne_eq, this, not_false_eq_true, if_true, Res.bind_ok]
      rw [mul_assoc, ← pow_succ]
    by_cases h3 : count / 2 = k
    · have a1 : ¬ count / 2 < k := by omega
      have a2 : ¬ count / 2 + 1 < k := by omega
      have a3 : count / 2 - 1 < k := by omega
      simp only [a1, a2, a3, if_true, if_false]
      simp only [h3, or_true, if_true, Res.bind_ok]
      have e : k - 1 + 1 = k := by omega
      have b1 : lower * factor ^ (k + 1 + 1) = lower * factor ^ (k + 1) * factor := by rw [pow_succ]; ring
      have b2 : lower * factor ^ (k + 1) ≠ lower * factor ^ (k - 1) * factor := by
        rw [mul_assoc, ← pow_succ, e]; exact pow_step_ne hf h1 hl k
      simp only [ne_eq, b1, not_true, if_false, b2, not_false_eq_true, if_true]
      rw [mul_assoc, ← pow_succ, e]
    · have h4 : ¬ (count / 2 + 1 = k ∨ count / 2 = k) := by omega
      simp only [h4, if_false]
      by_cases h5 : count / 2 < k
      · have a2 : count / 2 + 1 < k := by omega
        have a3 : count / 2 - 1 < k := by omega
        simp only [h5, a2, a3, if_true]
        have b1 : lower * factor ^ (count / 2 + 1) = lower * factor ^ (count / 2) * factor := by
          rw [pow_succ]; ring
        have b2 : lower * factor ^ (count / 2) = lower * factor ^ (count / 2 - 1) * factor := by
          rw [mul_assoc, ← pow_succ, show count / 2 - 1 + 1 = count / 2 by omega]
        rw [← b1, ← b2]
        simp only [ne_eq, not_true, if_false]
        exact ih _
      · have a2 : ¬ count / 2 + 1 < k := by omega
        have a3 : ¬ count / 2 - 1 < k := by omega
        simp only [h5, a2, a3, if_false]
        have e : count / 2 - 1 + 1 = count / 2 := by omega
        have b1 : lower * factor ^ (count / 2 + 1 + 1) = lower * factor ^ (count / 2 + 1) * factor := by
          rw [pow_succ]; ring
        have b2 : lower * factor ^ (count / 2 + 1) = lower * factor ^ (count / 2 - 1 + 1) * factor := by
          rw [e, pow_succ]; ring
        rw [← b1, ← b2]
        have b3 := pow_step_ne hf h1 hl (count / 2)
        simp only [ne_eq, not_true, if_false, b3]
        exact ih _

theorem findGeom_first {n : Nat} (h1 : factor ≠ 1) (hl : lower ≠ 0) (hn : 0 < n) :
    findGeom (gap (fun i => lower * factor ^ i) n 0) factor lower = .ok (true, lower) := by
  unfold findGeom
  rw [rd_gap _ hn]
  have : lower * factor ≠ lower := by
    intro h; apply h1; exact mul_left_cancel₀ hl (by rw [h, mul_one])
  simp [this]

theorem findGeom_ghunt {n k : Nat} (hf : factor ≠ 0) (h1 : factor ≠ 1) (hl : lower ≠ 0) (hn : 0 < n) (h0 : 0 < k)
    (hk : k ≤ n) :
    findGeom (gap (fun i => lower * factor ^ i) n k) factor lower =
      (ghunt n k n n) >>= fun b => .ok (b, if b then lower * factor ^ k else lower) := by
  unfold findGeom
  rw [rd_gap _ hn, gap_length _ hk, geomLoop_ghunt hf h1 hl h0 hk]
  simp [h0]

end Geom

end Verif.Seqs
