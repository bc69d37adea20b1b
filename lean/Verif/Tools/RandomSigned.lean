import Verif.Tools.Model
import Verif.Tools.EnumType

/-!
C214: `next_random` (tools/random.h:34-43) for ranges of a signed `int_type`.

`next_random<int_type>(start, end)` converts its arguments to `unsigned long` (`ubits` bits) and then to the `result_type` of the generator
(`bits` bits), and the number drawn to `int_type` (`tbits` bits, no more than the others).
-/

namespace Verif.Tools.RandomSigned
open Verif.Tools.Enum (Under)

/-- The type with `t` bits and sign. -/
abbrev sgn (t : Nat) : Under := ⟨true, t⟩

/-- The conversion of an argument to `unsigned long`. -/
def toUl (ubits : Nat) (v : Int) : Nat := (v % 2 ^ ubits).toNat

/-- `next_random<int_type>(start, end)` for a signed `int_type`; `r` is the output of the generator, see `draw`. -/
def nextRandomS (ubits bits tbits : Nat) (start stop : Int) (r : Nat) : Res Int := do
  let x ← draw bits (toUl ubits start) (toUl ubits stop) r
  .ok ((sgn tbits).ofSize x)

theorem pow_dvd {b c : Nat} (h : b ≤ c) : (2 : Int) ^ b ∣ 2 ^ c := ⟨2 ^ (c - b), by rw [← Int.pow_add, Nat.add_sub_cancel' h]⟩

theorem toUl_mod {ubits bits : Nat} (h : bits ≤ ubits) (v : Int) : ((toUl ubits v % 2 ^ bits : Nat) : Int) = v % 2 ^ bits := by
  have e1 : ((toUl ubits v : Nat) : Int) = v % 2 ^ ubits := by
    unfold toUl
    exact Int.toNat_of_nonneg (Int.emod_nonneg _ (Int.ne_of_gt (Int.pow_pos (by decide))))
  rw [Int.natCast_emod, e1, Int.natCast_pow]
  exact Int.emod_emod_of_dvd _ (pow_dvd h)

theorem two_half {t : Nat} (h : 1 ≤ t) : (2 : Int) ^ t = 2 * 2 ^ (t - 1) := by
  obtain ⟨c, rfl⟩ : ∃ c, t = c + 1 := ⟨t - 1, by omega⟩
  rw [Nat.add_sub_cancel, Int.pow_succ, Int.mul_comm]

/-- A number that differs from a value of the type by a multiple of the number of its values is converted to that value. -/
theorem ofSize_eq {t : Nat} (ht : 1 ≤ t) {n : Nat} {y : Int} (hy : (sgn t).Has y) (e : (n : Int) % 2 ^ t = y % 2 ^ t) :
    (sgn t).ofSize n = y := by
  have hp := two_half ht
  have hpos : (0 : Int) < 2 ^ (t - 1) := Int.pow_pos (by decide)
  unfold Under.Has at hy
  simp only [if_true] at hy
  unfold Under.ofSize
  simp only [e, true_and]
  by_cases h0 : 0 ≤ y
  · rw [Int.emod_eq_of_lt h0 (by omega), if_neg (by omega)]
  · have e : y % 2 ^ t = y + 2 ^ t := by
      rw [← Int.add_emod_right]
      exact Int.emod_eq_of_lt (by omega) (by omega)
    rw [e, if_pos (by omega)]
    omega

theorem pow_le {b c : Nat} (h : b ≤ c) : (2 : Int) ^ b ≤ 2 ^ c := by
  have := Nat.pow_le_pow_right (show 0 < 2 by decide) h
  exact_mod_cast this

/-- C214 in full: for every range of a signed type the call is defined and gives a number of the range. -/
def C214_statement (ubits bits tbits : Nat) : Prop :=
  ∀ (start stop : Int) (r : Nat), (sgn tbits).Has start → (sgn tbits).Has stop → start ≤ stop →
    ∃ x, nextRandomS ubits bits tbits start stop r = .ok x ∧ start ≤ x ∧ x ≤ stop

/-- C214, exactly: undefined behaviour for a range from a negative number to one that is not, otherwise the numbers of the range in turn. -/
theorem C214_exact {ubits bits tbits : Nat} (h1 : 1 ≤ tbits) (h2 : tbits ≤ bits) (h3 : bits ≤ ubits) {start stop : Int}
    (ha : (sgn tbits).Has start) (hb : (sgn tbits).Has stop) (hle : start ≤ stop) (r : Nat) :
    nextRandomS ubits bits tbits start stop r =
      if start < 0 ∧ 0 ≤ stop then .ub else .ok (start + (r % ((stop - start).toNat + 1) : Nat)) := by
  have hp := two_half h1
  have hpos : (0 : Int) < 2 ^ (tbits - 1) := Int.pow_pos (by decide)
  have hPT := pow_le h2
  have ha' := ha
  have hb' := hb
  unfold Under.Has at ha' hb'
  simp only [if_true] at ha' hb'
  have ea := toUl_mod h3 start
  have eb := toUl_mod h3 stop
  have neg : ∀ v : Int, -2 ^ (tbits - 1) ≤ v → v < 0 → v % 2 ^ bits = v + 2 ^ bits := by
    intro v k1 k2
    rw [← Int.add_emod_right]
    exact Int.emod_eq_of_lt (by omega) (by omega)
  have pos : ∀ v : Int, 0 ≤ v → v < 2 ^ (tbits - 1) → v % 2 ^ bits = v := fun v k1 k2 => Int.emod_eq_of_lt k1 (by omega)
  have fin : ∀ (A : Nat) (k : Nat), ((A : Int) = start ∨ (A : Int) = start + 2 ^ bits) → start + (k : Int) ≤ stop →
      (sgn tbits).ofSize (A + k) = start + k := by
    intro A k hA hk
    refine ofSize_eq h1 ?_ ?_
    · unfold Under.Has
      simp only [if_true]
      omega
    · rw [Int.natCast_add]
      rcases hA with e | e
      · rw [e]
      · rw [e, show start + 2 ^ bits + (k : Int) = start + k + 2 ^ bits by omega, Int.add_emod,
          Int.emod_eq_zero_of_dvd (pow_dvd h2), Int.add_zero, Int.emod_emod_of_dvd _ (Int.dvd_refl _)]
  unfold nextRandomS draw
  simp only
  generalize toUl ubits start % 2 ^ bits = A at ea
  generalize toUl ubits stop % 2 ^ bits = B at eb
  have hk : r % ((stop - start).toNat + 1) < (stop - start).toNat + 1 := Nat.mod_lt _ (by omega)
  by_cases hs : start < 0
  · rw [neg start ha'.1 hs] at ea
    by_cases ht : 0 ≤ stop
    · rw [pos stop ht hb'.2] at eb
      rw [if_neg (show ¬ A ≤ B by omega), if_pos ⟨hs, ht⟩]
      rfl
    · rw [neg stop hb'.1 (by omega)] at eb
      rw [if_pos (show A ≤ B by omega), if_neg (show ¬ (start < 0 ∧ 0 ≤ stop) by omega), Res.bind_ok, show B - A + 1 = (stop - start).toNat + 1 by omega,
        fin A _ (.inr ea) (by omega)]
  · rw [pos start (by omega) ha'.2] at ea
    rw [pos stop (by omega) hb'.2] at eb
    rw [if_pos (show A ≤ B by omega), if_neg (show ¬ (start < 0 ∧ 0 ≤ stop) by omega), Res.bind_ok, show B - A + 1 = (stop - start).toNat + 1 by omega,
      fin A _ (.inl ea) (by omega)]

/-- C214, the part that holds: a range of negative numbers, or of numbers that are not negative.  Missing: ranges that contain both. -/
theorem C214_range_partial {ubits bits tbits : Nat} (h1 : 1 ≤ tbits) (h2 : tbits ≤ bits) (h3 : bits ≤ ubits) {start stop : Int}
    (ha : (sgn tbits).Has start) (hb : (sgn tbits).Has stop) (hle : start ≤ stop) (hside : stop < 0 ∨ 0 ≤ start) (r : Nat) :
    ∃ x, nextRandomS ubits bits tbits start stop r = .ok x ∧ start ≤ x ∧ x ≤ stop := by
  refine ⟨_, by rw [C214_exact h1 h2 h3 ha hb hle r, if_neg (by omega)], by omega, ?_⟩
  have hk : r % ((stop - start).toNat + 1) < (stop - start).toNat + 1 := Nat.mod_lt _ (by omega)
  omega

/-- C214: there every number of the range is drawn for some output of the generator. -/
theorem C214_onto_partial {ubits bits tbits : Nat} (h1 : 1 ≤ tbits) (h2 : tbits ≤ bits) (h3 : bits ≤ ubits) {start stop x : Int}
    (ha : (sgn tbits).Has start) (hb : (sgn tbits).Has stop) (g1 : start ≤ x) (g2 : x ≤ stop) (hside : stop < 0 ∨ 0 ≤ start) :
    ∃ r, nextRandomS ubits bits tbits start stop r = .ok x := by
  refine ⟨(x - start).toNat, ?_⟩
  rw [C214_exact h1 h2 h3 ha hb (by omega), if_neg (by omega), Nat.mod_eq_of_lt (by omega)]
  congr 1
  omega

/-- C214 fails for every signed type: the range from -1 to 0. -/
theorem C214_counterexample {ubits bits tbits : Nat} (h1 : 1 ≤ tbits) (h2 : tbits ≤ bits) (h3 : bits ≤ ubits) :
    ¬ C214_statement ubits bits tbits := by
  intro h
  have hpos : (0 : Int) < 2 ^ (tbits - 1) := Int.pow_pos (by decide)
  have ha : (sgn tbits).Has (-1) := by unfold Under.Has; simp only [if_true]; omega
  have hb : (sgn tbits).Has 0 := by unfold Under.Has; simp only [if_true]; omega
  obtain ⟨x, e, _⟩ := h (-1) 0 0 ha hb (by omega)
  rw [C214_exact h1 h2 h3 ha hb (by omega), if_pos (by omega)] at e
  cases e

/-- `int` where `unsigned long` and `result_type` have 64 bits, and where both have 32. -/
example : nextRandomS 64 64 32 (-10) (-3) 100 = .ok (-6) := by decide +kernel
example : nextRandomS 32 32 32 (-2147483648) (-1) 2147483650 = .ok (-2147483646) := by decide +kernel
example : nextRandomS 64 64 32 (-10) 10 5 = .ub := by decide +kernel
example : nextRandomS 64 32 16 100 32767 40000 = .ok 7432 := by decide +kernel

end Verif.Tools.RandomSigned
