import Verif.Signed
import Verif.Seqs.PropsMissing

/-!
The two searches for integers of classic/sequences/missing_element.h over a signed integer type with the values `lo … hi`, which is `int`
or wider, and with the rounding of `std::pow`.
-/

namespace Verif.Seqs

/-- missing_element.h:46-71, the loop of `find_missing_arithmetic_in_sorted`.  `std::distance(first, mid) * factor` and the sum with `lower` are
computed in the common type of `difference_type` and `int_type_t`, with the values `wlo … whi`, and converted by `nar`. -/
def arithLoopS (wlo whi lo hi : Int) (nar : Int → Int) (l : List Int) (factor lower : Int) : Nat → Nat → Res (Bool × Int)
  | 0, _ => .exc .invalid
  | it + 1, count => do
    let step := count / 2
    let p ← chk wlo whi (step * factor)
    let s ← chk wlo whi (lower + p)
    let expected := nar s
    if step = 0 then .ok (false, lower)
    else do
      let vmid ← rd l step
      if expected = vmid then arithLoopS wlo whi lo hi nar l factor lower it (count + step)
      else do
        let vpit ← rd l (step - 1)
        let d ← chk lo hi (expected - factor)
        if vpit = d then .ok (true, expected)
        else arithLoopS wlo whi lo hi nar l factor lower it (count - step)

/-- `find_missing_arithmetic_in_sorted` (missing_element.h:24-72). -/
def findArithS (wlo whi lo hi : Int) (nar : Int → Int) (l : List Int) (factor lower : Int) : Res (Bool × Int) := do
  let v ← rd l 0
  if v ≠ lower then do
    let e ← chk lo hi (lower + factor)
    if v = e then .ok (true, lower) else .exc .invalid
  else arithLoopS wlo whi lo hi nar l factor lower l.length l.length

/-- missing_element.h:111-145, the loop of the integer `find_missing_geometric_in_sorted`; `p d` is the whole part of the double
`lower * std::pow(factor, d)`, whose conversion is undefined if it does not fit. -/
def geomLoopS (lo hi : Int) (p : Nat → Int) (l : List Int) (factor lower : Int) : Nat → Nat → Res (Bool × Int)
  | 0, count => if count = 0 then .ok (false, lower) else .exc .invalid
  | it + 1, count =>
    if count = 0 then .ok (false, lower)
    else
      let step := count / 2
      if step = 0 ∨ step = l.length then .ok (false, lower)
      else do
        let vmid ← rd l step
        let e1 ← chk lo hi (vmid * factor)
        let vnit ← rd l (step + 1)
        if vnit ≠ e1 then .ok (true, e1)
        else do
          let vpit ← rd l (step - 1)
          let e2 ← chk lo hi (vpit * factor)
          if vmid ≠ e2 then .ok (true, e2)
          else do
            let e3 ← chk lo hi (p step)
            if vmid = e3 then geomLoopS lo hi p l factor lower it (count + step)
            else geomLoopS lo hi p l factor lower it (count - step)

/-- `find_missing_geometric_in_sorted` for integers (missing_element.h:87-146). -/
def findGeomS (lo hi : Int) (p : Nat → Int) (l : List Int) (factor lower : Int) : Res (Bool × Int) := do
  let v ← rd l 0
  if v ≠ lower then do
    let e ← chk lo hi (lower * factor)
    if v = e then .ok (true, lower) else .exc .invalid
  else geomLoopS lo hi p l factor lower l.length l.length

/-- The values of `long long` and `std::ptrdiff_t` (64 bits, two's complement). -/
def llMin : Int := -9223372036854775808
def llMax : Int := 9223372036854775807

/-- The double nearest to an integer, ties to even (no integer here is too great for a double). -/
def rnd (x : Int) : Int :=
  let a := x.natAbs
  if a < 2 ^ 53 then x
  else
    let e := 2 ^ (Nat.log2 a - 52)
    let q := a / e
    let q := if e < 2 * (a % e) ∨ (2 * (a % e) = e ∧ q % 2 = 1) then q + 1 else q
    if 0 ≤ x then (q * e : Nat) else -((q * e : Nat) : Int)

/-- `lower * std::pow(factor, d)` in doubles, with a `pow` that rounds correctly. -/
def powD (lower factor : Int) (d : Nat) : Int := rnd (rnd lower * rnd (factor ^ d))

example : rnd (2 ^ 53 + 1) = 2 ^ 53 ∧ rnd (2 ^ 53 + 3) = 2 ^ 53 + 4 ∧ rnd (-(2 ^ 63 - 1)) = -2 ^ 63 ∧ rnd 12345 = 12345 := by decide +kernel

/-! ### C156: the arithmetic search -/

/-- **C156, full statement:** when all elements of the complete progression fit the type, `find_missing_arithmetic_in_sorted` does what it does without
bounds; here for the 64 bit type. -/
def C156_statement : Prop :=
  ∀ (lower factor : Int) (n k : Nat), factor ≠ 0 → k ≤ n → (∀ i ≤ n, Fits llMin llMax (lower + (i : Int) * factor)) →
    findArithS llMin llMax llMin llMax id (arithGap lower factor n k) factor lower = findArith (arithGap lower factor n k) factor lower

/-- **C156, partial.** Nothing overflows if also the distances of the elements from the first one fit the wider type. Missing: 64 bit progressions that
span more than half the range. -/
theorem C156_arithmetic_partial (wlo whi lo hi : Int) (nar : Int → Int) (hnar : ∀ x, Fits lo hi x → nar x = x) (hw1 : wlo ≤ lo) (hw2 : hi ≤ whi)
    (lower factor : Int) (n k : Nat) (hk : k ≤ n) (hfit : ∀ i ≤ n, Fits lo hi (lower + (i : Int) * factor))
    (hdist : ∀ i ≤ n, Fits wlo whi ((i : Int) * factor)) :
    findArithS wlo whi lo hi nar (arithGap lower factor n k) factor lower = findArith (arithGap lower factor n k) factor lower := by
  have loop : ∀ it count, arithLoopS wlo whi lo hi nar (arithGap lower factor n k) factor lower it count =
      arithLoop (arithGap lower factor n k) factor lower it count := by
    intro it
    induction it with
    | zero => intro count; rfl
    | succ it ih =>
      intro count
      simp only [arithLoopS, arithLoop]
      by_cases hn : count / 2 < n
      · have f1 := hfit (count / 2) (by omega)
        rw [chk_ok (hdist (count / 2) (by omega)), Res.bind_ok, chk_ok ⟨le_trans hw1 f1.1, le_trans f1.2 hw2⟩, Res.bind_ok, hnar _ f1]
        by_cases h0 : count / 2 = 0
        · simp only [h0, if_true]
        simp only [h0, if_false]
        rw [rd_gap _ hn, rd_gap _ (show count / 2 - 1 < n by omega)]
        have f2 := hfit (count / 2 - 1) (by omega)
        have e : lower + ((count / 2 - 1 : Nat) : Int) * factor = lower + ((count / 2 : Nat) : Int) * factor - factor := by
          have : ((count / 2 - 1 : Nat) : Int) = ((count / 2 : Nat) : Int) - 1 := by omega
          rw [this]; ring
        rw [e] at f2
        simp only [Res.bind_ok, chk_ok f2, ih]
      · by_cases h0 : count / 2 = 0
        · simp only [h0, if_true, Nat.cast_zero, zero_mul, add_zero]
          have f1 := hfit 0 (Nat.zero_le _)
          have f2 := hdist 0 (Nat.zero_le _)
          simp only [Nat.cast_zero, zero_mul, add_zero] at f1 f2
          rw [chk_ok f2, Res.bind_ok, add_zero, chk_ok ⟨le_trans hw1 f1.1, le_trans f1.2 hw2⟩, Res.bind_ok]
        · simp only [h0, if_false]
          rw [rd_gap_ge _ hk (by omega)]
          simp only [Res.bind_ub]
          unfold chk
          split
          · simp only [Res.bind_ok]
            split <;> rfl
          · rfl
  unfold findArithS findArith
  by_cases hn : n = 0
  · subst hn
    rw [rd_gap_ge _ hk (Nat.le_refl _)]; rfl
  rw [rd_gap _ (by omega : 0 < n)]
  simp only [Res.bind_ok, loop]
  have f := hfit 1 (by omega)
  simp only [Nat.cast_one, one_mul] at f
  rw [chk_ok f, Res.bind_ok]

/-- **C156** for `int`: the products are computed in 64 bits, so nothing overflows. -/
theorem C156_int_partial (nar : Int → Int) (hnar : ∀ x, Fits intMin intMax x → nar x = x) (lower factor : Int) (n k : Nat) (hk : k ≤ n)
    (hfit : ∀ i ≤ n, Fits intMin intMax (lower + (i : Int) * factor)) :
    findArithS llMin llMax intMin intMax nar (arithGap lower factor n k) factor lower = findArith (arithGap lower factor n k) factor lower := by
  refine C156_arithmetic_partial _ _ _ _ nar hnar (by decide) (by decide) lower factor n k hk hfit fun i hi => ?_
  have f0 := hfit 0 (Nat.zero_le _)
  have f1 := hfit i hi
  simp only [Nat.cast_zero, zero_mul, add_zero] at f0
  simp only [intMin, intMax, llMin, llMax] at *
  constructor <;> omega

/-- **C156, counterexample:** the claim fails for 64 bit integers: the distance of the fourth element from the first one does not fit. -/
theorem C156_counterexample : ¬ C156_statement := by
  intro h
  have := h llMin 4611686018427387903 4 3 (by decide) (by decide) (by
    intro i hi
    simp only [llMin, llMax]
    constructor <;> omega)
  revert this
  decide +kernel

example : findArith (arithGap llMin 4611686018427387903 4 3) 4611686018427387903 llMin = .ok (true, 4611686018427387901) := by decide +kernel
example : findArithS llMin llMax llMin llMax id (arithGap llMin 4611686018427387903 4 3) 4611686018427387903 llMin = .ub := by decide +kernel
example : findArithS llMin llMax intMin intMax id (arithGap intMin 1073741823 4 3) 1073741823 intMin = .ok (true, 1073741821) := by decide +kernel

/-! ### C157: the geometric search -/

/-- **C157, full statement:** when all elements of the complete progression fit the type, the integer `find_missing_geometric_in_sorted` does what it does
without bounds and rounding; here for 64 bits. -/
def C157_statement : Prop :=
  ∀ (lower factor : Int) (n k : Nat), lower ≠ 0 → factor ≠ 0 → factor ≠ 1 → k ≤ n → (∀ i ≤ n, Fits llMin llMax (lower * factor ^ i)) →
    findGeomS llMin llMax (powD lower factor) (geomGap lower factor n k) factor lower = findGeom (geomGap lower factor n k) factor lower

/-- With an exact power nothing overflows. -/
theorem geomS_exact (lo hi : Int) (p : Nat → Int) (lower factor : Int) (n k : Nat) (hk : k ≤ n) (hp : ∀ i < n, p i = lower * factor ^ i)
    (hfit : ∀ i ≤ n, Fits lo hi (lower * factor ^ i)) :
    findGeomS lo hi p (geomGap lower factor n k) factor lower = findGeom (geomGap lower factor n k) factor lower := by
  have hmul : ∀ i, i < n → Fits lo hi (lower * factor ^ i * factor) := by
    intro i hi
    rw [mul_assoc, ← pow_succ]
    exact hfit (i + 1) hi
  have loop : ∀ it count, geomLoopS lo hi p (geomGap lower factor n k) factor lower it count =
      geomLoop (geomGap lower factor n k) factor lower it count := by
    intro it
    induction it with
    | zero => intro count; rfl
    | succ it ih =>
      intro count
      simp only [geomLoopS, geomLoop, gap_length _ hk]
      split
      · rfl
      split
      · rfl
      next h0 =>
      by_cases hn : count / 2 + 1 < n
      · have idx : ∀ i : Nat, i + 1 < n → (if i < k then i else i + 1) < n := fun i h => by split <;> omega
        rw [rd_gap _ (show count / 2 < n by omega), rd_gap _ hn, rd_gap _ (show count / 2 - 1 < n by omega)]
        simp only [Res.bind_ok, chk_ok (hmul _ (idx _ hn)), chk_ok (hmul _ (idx (count / 2 - 1) (by omega))), hp _ (show count / 2 < n by omega),
          chk_ok (hfit (count / 2) (by omega)), ih]
      · by_cases hq : count / 2 < n
        · rw [rd_gap _ hq, rd_gap_ge (i := count / 2 + 1) _ hk (by omega)]
          simp only [Res.bind_ok, Res.bind_ub]
          generalize lower * factor ^ (if count / 2 < k then count / 2 else count / 2 + 1) * factor = z
          unfold chk
          split <;> rfl
        · rw [rd_gap_ge (i := count / 2) _ hk (by omega)]; rfl
  unfold findGeomS findGeom
  by_cases hn : n = 0
  · subst hn
    rw [rd_gap_ge _ hk (Nat.le_refl _)]; rfl
  rw [rd_gap _ (by omega : 0 < n)]
  simp only [Res.bind_ok, loop]
  have f := hfit 1 (by omega)
  rw [pow_one] at f
  rw [chk_ok f, Res.bind_ok]

theorem rnd_exact {x : Int} (h : x.natAbs < 2 ^ 53) : rnd x = x := by
  unfold rnd
  exact if_pos h

/-- **C157, partial.** It holds when all elements are below 2^53 in absolute value, in particular always for `int`. Missing: greater elements, which a
double need not represent. -/
theorem C157_geometric_partial (lo hi : Int) (lower factor : Int) (n k : Nat) (hl : lower ≠ 0) (hf : factor ≠ 0) (hk : k ≤ n)
    (hfit : ∀ i ≤ n, Fits lo hi (lower * factor ^ i)) (hsmall : ∀ i < n, (lower * factor ^ i).natAbs < 2 ^ 53) :
    findGeomS lo hi (powD lower factor) (geomGap lower factor n k) factor lower = findGeom (geomGap lower factor n k) factor lower := by
  refine geomS_exact lo hi _ lower factor n k hk (fun i hi => ?_) hfit
  have h0 := hsmall i hi
  rw [Int.natAbs_mul] at h0
  have a1 : 0 < lower.natAbs := Int.natAbs_pos.2 hl
  have a2 : 0 < (factor ^ i).natAbs := Int.natAbs_pos.2 (pow_ne_zero i hf)
  have b1 : lower.natAbs < 2 ^ 53 := lt_of_le_of_lt (Nat.le_mul_of_pos_right _ a2) h0
  have b2 : (factor ^ i).natAbs < 2 ^ 53 := lt_of_le_of_lt (Nat.le_mul_of_pos_left _ a1) h0
  unfold powD
  rw [rnd_exact b1, rnd_exact b2, rnd_exact (hsmall i hi)]

theorem gap_next (lower factor : Int) {n k a : Nat} (ha : a + 1 < n) {x y : Int} (hx : rd (geomGap lower factor n k) a = .ok x)
    (hy : rd (geomGap lower factor n k) (a + 1) = .ok y) (hne : y ≠ x * factor) : x * factor = lower * factor ^ k := by
  rw [rd_gap _ (by omega)] at hx
  rw [rd_gap _ ha] at hy
  injection hx with hx
  injection hy with hy
  subst hx hy
  rw [mul_assoc, ← pow_succ] at hne ⊢
  by_cases h1 : a + 1 < k
  · simp [h1, show a < k by omega] at hne
  · by_cases h2 : a < k
    · rw [if_pos h2]
      have : a + 1 = k := by omega
      rw [this]
    · simp [h1, h2] at hne

/-- **C157** (and C68 with bounds): whatever `std::pow` returns, and whatever the type, a value that is reported is the missing one. -/
theorem C157_sound (lo hi : Int) (p : Nat → Int) (lower factor : Int) (n k : Nat) (hk : k ≤ n) (v : Int)
    (h : findGeomS lo hi p (geomGap lower factor n k) factor lower = .ok (true, v)) : v = lower * factor ^ k := by
  have loop : ∀ it count, geomLoopS lo hi p (geomGap lower factor n k) factor lower it count = .ok (true, v) → v = lower * factor ^ k := by
    intro it
    induction it with
    | zero => intro count h; simp only [geomLoopS] at h; split at h <;> cases h
    | succ it ih =>
      intro count h
      simp only [geomLoopS, gap_length _ hk] at h
      split at h
      · cases h
      split at h
      · cases h
      next h0 =>
      rw [Res.bind_eq_ok] at h
      obtain ⟨vm, hm, h⟩ := h
      rw [Res.bind_eq_ok] at h
      obtain ⟨e1, he1, h⟩ := h
      rw [Res.bind_eq_ok] at h
      obtain ⟨vn, hn, h⟩ := h
      obtain ⟨rfl, -⟩ := chk_eq he1
      have hlt : count / 2 + 1 < n := by
        by_contra hc
        rw [rd_gap_ge _ hk (by omega)] at hn
        cases hn
      split at h
      · next hne =>
        injection h with h
        injection h with _ h
        rw [← h]
        exact gap_next lower factor hlt hm hn hne
      rw [Res.bind_eq_ok] at h
      obtain ⟨vp, hp, h⟩ := h
      rw [Res.bind_eq_ok] at h
      obtain ⟨e2, he2, h⟩ := h
      obtain ⟨rfl, -⟩ := chk_eq he2
      split at h
      · next hne =>
        injection h with h
        injection h with _ h
        rw [← h]
        have e : count / 2 - 1 + 1 = count / 2 := by omega
        exact gap_next lower factor (a := count / 2 - 1) (by omega) hp (by rw [e]; exact hm) hne
      rw [Res.bind_eq_ok] at h
      obtain ⟨e3, he3, h⟩ := h
      split at h
      · exact ih _ h
      · exact ih _ h
  unfold findGeomS at h
  rw [Res.bind_eq_ok] at h
  obtain ⟨v0, hv0, h⟩ := h
  split at h
  · next hne =>
    rw [Res.bind_eq_ok] at h
    obtain ⟨e, -, h⟩ := h
    split at h
    · injection h with h
      injection h with _ h
      by_cases hn : n = 0
      · subst hn
        rw [rd_gap_ge _ hk (Nat.le_refl _)] at hv0
        cases hv0
      rw [rd_gap _ (by omega)] at hv0
      injection hv0 with hv0
      by_cases h0 : 0 < k
      · rw [if_pos h0, pow_zero, mul_one] at hv0
        exact absurd hv0.symm hne
      · rw [show k = 0 by omega, pow_zero, mul_one]
        exact h.symm
    · cases h
  · exact loop _ _ h

/-- **C157, counterexample:** the claim fails: the doubles for `2^53 + 1` and its multiples are others, so that the search turns to the wrong side and
does not find the element it finds without rounding. -/
theorem C157_counterexample : ¬ C157_statement := by
  intro h
  have := h (2 ^ 53 + 1) 2 8 7 (by decide) (by decide) (by decide) (by decide) (by decide +kernel)
  revert this
  decide +kernel

example : findGeom (geomGap (2 ^ 53 + 1) 2 8 7) 2 (2 ^ 53 + 1) = .ok (true, (2 ^ 53 + 1) * 2 ^ 7) := by decide +kernel
example : findGeomS llMin llMax (powD (2 ^ 53 + 1) 2) (geomGap (2 ^ 53 + 1) 2 8 7) 2 (2 ^ 53 + 1) = .ok (false, 2 ^ 53 + 1) := by
  decide +kernel

/-- **C157, counterexample:** for the greatest 64 bit integer and the factor -1 the double is `2^63`, whose conversion back is undefined. -/
theorem C157_counterexample_conversion :
    (∀ i, i ≤ 8 → Fits llMin llMax (llMax * (-1) ^ i)) ∧
    findGeom (geomGap llMax (-1) 8 6) (-1) llMax = .ok (true, llMax) ∧
    findGeomS llMin llMax (powD llMax (-1)) (geomGap llMax (-1) 8 6) (-1) llMax = .ub := by
  refine ⟨by decide +kernel, by decide +kernel, by decide +kernel⟩

end Verif.Seqs
