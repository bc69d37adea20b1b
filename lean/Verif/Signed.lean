import Verif.Common

/-!
Arithmetic of a signed integer type with the values `lo … hi`: a result outside is undefined behaviour.  (Types narrower than `int`
are computed in `int` and converted; for them the results are those of `BitVec`, as for unsigned types.)
-/

namespace Verif

/-- The value fits the type. -/
abbrev Fits (lo hi x : Int) : Prop := lo ≤ x ∧ x ≤ hi

/-- The result of an operation of a signed type. -/
def chk (lo hi x : Int) : Res Int := if lo ≤ x ∧ x ≤ hi then .ok x else .ub

theorem chk_ok {lo hi x : Int} (h : Fits lo hi x) : chk lo hi x = .ok x := if_pos h

theorem chk_ub {lo hi x : Int} (h : ¬ Fits lo hi x) : chk lo hi x = .ub := if_neg h

theorem chk_eq {lo hi x y : Int} (h : chk lo hi x = .ok y) : y = x ∧ Fits lo hi x := by
  unfold chk at h
  split at h
  · next hf => exact ⟨by injection h with h; exact h.symm, hf⟩
  · cases h

/-- The values of `int` (32 bits, two's complement). -/
def intMin : Int := -2147483648
def intMax : Int := 2147483647

end Verif
