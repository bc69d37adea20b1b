import Verif.Seqs.Missing
import Mathlib.Data.List.Perm.Basic

/-
C70-C72: the XOR searches of missing_element.h.
-/

namespace Verif.Seqs

variable {w : Nat}

/-- XOR of all elements. -/
def xs (l : List (BitVec w)) : BitVec w := l.foldl (· ^^^ ·) 0#w

theorem foldl_xs (l : List (BitVec w)) (x : BitVec w) : l.foldl (· ^^^ ·) x = x ^^^ xs l := by
  induction l generalizing x with
  | nil => simp [xs]
  | cons a t ih => simp only [xs, List.foldl_cons]; rw [ih, ih (0#w ^^^ a)]; simp [BitVec.xor_assoc]

theorem xs_cons (a : BitVec w) (t : List (BitVec w)) : xs (a :: t) = a ^^^ xs t := by
  simp only [xs, List.foldl_cons]; rw [foldl_xs]; simp [xs]

theorem xs_perm {a b : List (BitVec w)} (h : a.Perm b) : xs a = xs b := by
  induction h with
  | nil => rfl
  | cons x _ ih => rw [xs_cons, xs_cons, ih]
  | swap x y l => simp only [xs_cons, ← BitVec.xor_assoc, BitVec.xor_comm x y]
  | trans _ _ h1 h2 => exact h1.trans h2

theorem xor_cancel (a b : BitVec w) : a ^^^ (a ^^^ b) = b := by rw [← BitVec.xor_assoc]; simp

theorem xorRange_ok {l : List (BitVec w)} (h : l ≠ []) : xorRange l = .ok (xs l) := by
  cases l with
  | nil => exact absurd rfl h
  | cons a t => simp only [xorRange]; rw [foldl_xs, xs_cons]

theorem xorCount_eq (n : Nat) (ii : Int) (e : BitVec w) :
    xorCount n ii e = e ^^^ xs ((List.range n).map fun i : Nat => BitVec.ofInt w (ii + (i : Int))) := by
  induction n generalizing ii e with
  | zero => simp [xorCount, xs]
  | succ n ih =>
    simp only [xorCount]
    rw [ih, List.range_succ_eq_map, List.map_cons, xs_cons, List.map_map, BitVec.xor_assoc]
    simp only [Int.ofNat_zero, Int.add_zero, Function.comp_def, Int.natCast_zero]
    congr 3
    apply List.map_congr_left
    intro i _
    congr 1
    push_cast
    ring

theorem gap_perm {α} (base : Nat → α) {n k : Nat} (hk : k ≤ n) :
    (base k :: gap base n k).Perm ((List.range (n + 1)).map base) := by
  have h : k < ((List.range (n + 1)).map base).length := by simp; omega
  have := List.getElem_cons_eraseIdx_perm h
  simpa [gap] using this

/-! ### C70 -/

/-- C70: if the range is, in any order, `lower, …, lower+n` with the `k`-th of them missing (and these values, and one
more, fit the type), `find_missing_sequential_range` returns the missing value; an empty range gives `{false, 0}`. -/
theorem C70_missing (tmax lower : Int) (n k : Nat) (l : List (BitVec w)) (hn : 0 < n) (hk : k ≤ n)
    (hfit : lower + (n : Int) < tmax)
    (hl : l.Perm (gap (fun i => BitVec.ofInt w (lower + (i : Int))) n k)) :
    findSequential tmax l lower = .ok (true, BitVec.ofInt w (lower + (k : Int))) := by
  have hlen : l.length = n := by rw [hl.length_eq, gap_length _ hk]
  have hne : l ≠ [] := by intro h; rw [h] at hlen; simp at hlen; omega
  unfold findSequential
  rw [if_neg (by omega), xorRange_ok hne, hlen]
  simp only [Res.bind_ok]
  rw [if_neg (by omega), show (lower + (n : Int) - lower + 1).toNat = n + 1 by omega, xorCount_eq,
    xs_perm hl, ← xs_perm (gap_perm (fun i => BitVec.ofInt w (lower + (i : Int))) hk), xs_cons,
    BitVec.xor_comm (BitVec.ofInt w (lower + (k : Int))), xor_cancel]

theorem C70_empty (tmax lower : Int) : findSequential tmax ([] : List (BitVec w)) lower = .ok (false, 0#w) := rfl

/-- C70 for the default `int`: the returned bits, read as a signed number, are the missing number. -/
theorem C70_signed (w : Nat) (lower : Int) (n k : Nat) (l : List (BitVec (w + 1))) (hn : 0 < n) (hk : k ≤ n)
    (hlo : -2 ^ w ≤ lower) (hfit : lower + (n : Int) < 2 ^ w - 1)
    (hl : l.Perm (gap (fun i => BitVec.ofInt (w + 1) (lower + (i : Int))) n k)) :
    ∃ v, findSequential (2 ^ w - 1) l lower = .ok (true, v) ∧ v.toInt = lower + (k : Int) := by
  refine ⟨_, C70_missing _ lower n k l hn hk hfit hl, ?_⟩
  rw [BitVec.toInt_ofInt, Int.bmod_eq_of_le]
  · push_cast
    rw [pow_succ]
    omega
  · push_cast
    rw [pow_succ]
    omega

example : findSequential (2 ^ 31 - 1) [5#32, 2#32, 4#32, 1#32] 1 = .ok (true, 3#32) := by decide +kernel
example : findSequential (2 ^ 31 - 1) [BitVec.ofInt 32 (-2), 0#32, 1#32] (-2) = .ok (true, BitVec.ofInt 32 (-1)) := by
  decide +kernel

/-! ### C71 -/

/-- C71: the element that one of the two ranges has more than the other. -/
theorem C71_first (x : BitVec w) (a b : List (BitVec w)) (h : a.Perm (x :: b)) : findNotCommon a b = .ok x := by
  have hne : a ≠ [] := by intro h'; subst h'; exact absurd h.length_eq (by simp)
  unfold findNotCommon
  rw [xorRange_ok hne]
  simp only [Res.bind_ok]
  rw [foldl_xs, xs_perm h, xs_cons, BitVec.xor_assoc, BitVec.xor_self, BitVec.xor_zero]

theorem C71_second (x : BitVec w) (a b : List (BitVec w)) (hne : a ≠ []) (h : b.Perm (x :: a)) :
    findNotCommon a b = .ok x := by
  unfold findNotCommon
  rw [xorRange_ok hne]
  simp only [Res.bind_ok]
  rw [foldl_xs, xs_perm h, xs_cons, BitVec.xor_comm x, xor_cancel]

/-- An empty first range is dereferenced: the precondition of `C71_second` is needed. -/
theorem C71_empty (b : List (BitVec w)) : findNotCommon [] b = .ub := rfl

example : findNotCommon [7#8, 9#8, 7#8, 1#8] [7#8, 1#8, 7#8] = .ok 9#8 := by decide

/-! ### C72 -/

theorem xs_even (x : BitVec w) : ∀ (m : Nat) (l : List (BitVec w)), l.length ≤ m →
    (∀ y, y ≠ x → l.count y % 2 = 0) → xs l = if l.count x % 2 = 1 then x else 0#w := by
  intro m
  induction m with
  | zero =>
    intro l hl _
    have : l = [] := List.length_eq_zero_iff.mp (by omega)
    subst this; simp [xs]
  | succ m ih =>
    intro l hl hev
    cases l with
    | nil => simp [xs]
    | cons a t =>
      rw [xs_cons]
      by_cases hax : a = x
      · subst hax
        rw [ih t (by simpa using hl) (fun y hy => by
          have := hev y hy; rwa [List.count_cons_of_ne hy.symm] at this), List.count_cons_self]
        by_cases hp : t.count a % 2 = 1
        · rw [if_pos hp, if_neg (by omega), BitVec.xor_self]
        · rw [if_neg hp, if_pos (by omega), BitVec.xor_zero]
      · have h1 := hev a hax
        rw [List.count_cons_self] at h1
        have hmem : a ∈ t := List.count_pos_iff.mp (by omega)
        have hp := List.perm_cons_erase hmem
        rw [xs_perm hp, xs_cons, xor_cancel, List.count_cons_of_ne hax, ← List.count_erase_of_ne (l := t) (Ne.symm hax)]
        apply ih
        · have := List.length_erase_of_mem hmem
          simp at hl; omega
        · intro y hy
          by_cases hya : y = a
          · subst hya; rw [List.count_erase_self]; omega
          · rw [List.count_erase_of_ne hya]
            have := hev y hy
            rwa [List.count_cons_of_ne (Ne.symm hya)] at this

/-- C72: the one value that occurs an odd number of times. -/
theorem C72_non_repeated (x : BitVec w) (l : List (BitVec w)) (hx : l.count x % 2 = 1)
    (hy : ∀ y, y ≠ x → l.count y % 2 = 0) : findNonRepeated l = .ok x := by
  have hne : l ≠ [] := by intro h; subst h; simp at hx
  unfold findNonRepeated
  rw [xorRange_ok hne, xs_even x l.length l (Nat.le_refl _) hy, if_pos hx]

/-- An empty range is dereferenced. -/
theorem C72_empty : findNonRepeated ([] : List (BitVec w)) = .ub := rfl

example : findNonRepeated [3#8, 5#8, 3#8, 200#8, 5#8] = .ok 200#8 := by decide

end Verif.Seqs
