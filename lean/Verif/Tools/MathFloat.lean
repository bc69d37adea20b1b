import Verif.Tools.PropsMath
import Verif.Binary64Order
import Verif.Fenwick.FloatingError
import Mathlib.Data.List.Perm.Basic

/-!
C197: the variadic functors of tools/math_operation.h with `double`s (rounding, infinities, NaN): `sum_t` (l.31-34), `minimum_t` (l.120-129) and
`maximum_t` (l.138-147). `std::min` and `std::max` of an `initializer_list` are the loops of libstdc++; the standard asks for a strict weak order,
which `<` is not if there is a NaN, so that what is said here about NaN depends on that implementation.
-/

namespace Verif.Tools
open Dbl
open Verif.Fenwick (growth Near)

/-- `sum_t<double>{}(x, args...)`. -/
def sumD (x : Dbl) (args : List Dbl) : Dbl := foldOp Dbl.add x args

/-- `minimum_t<double>{}(x, args...)`: `std::min` replaces its result by an element that is less. -/
def minD (x : Dbl) (args : List Dbl) : Dbl := extremum Dbl.lt x args

/-- `maximum_t<double>{}(x, args...)`: `std::max` replaces its result by an element that it is less than. -/
def maxD (x : Dbl) (args : List Dbl) : Dbl := extremum (fun a b => Dbl.lt b a) x args

/-! ### Specification -/

/-- `x + a + b + ...`, from left to right as the operator `+` of C++ does it. -/
def leftFold {α} (op : α → α → α) (x : α) (args : List α) : α := args.foldl op x

/-- `r` is the least of the arguments that are numbers. -/
def IsLeast (l : List Dbl) (r : Dbl) : Prop := r ∈ l ∧ r ≠ .nan ∧ ∀ y ∈ l, y ≠ .nan → Le r y

/-- `r` is the greatest of the arguments that are numbers. -/
def IsGreatest (l : List Dbl) (r : Dbl) : Prop := r ∈ l ∧ r ≠ .nan ∧ ∀ y ∈ l, y ≠ .nan → Le y r

/-- The full claim: the sum is the one from left to right, the minimum and maximum are the least and greatest of the arguments that are
numbers, if there are any. -/
def C197_statement : Prop := ∀ (x : Dbl) (args : List Dbl), sumD x args = leftFold Dbl.add x args ∧
  ((∃ y ∈ x :: args, y ≠ .nan) → IsLeast (x :: args) (minD x args) ∧ IsGreatest (x :: args) (maxD x args))

/-! ### Sums -/

theorem foldOp_cons {α} (op : α → α → α) (x y : α) (rest : List α) : foldOp op x (y :: rest) = op x (foldOp op y rest) := by
  cases rest with
  | nil => rfl
  | cons z rest => rfl

/-- The arguments are combined from right to left: the result for all arguments is the one from left to right exactly if the operation is
associative. -/
theorem C197_exact {α} (op : α → α → α) :
    (∀ (x : α) (args : List α), foldOp op x args = leftFold op x args) ↔ ∀ x y z, op (op x y) z = op x (op y z) := by
  constructor
  · intro h x y z
    exact (h x [y, z]).symm
  · intro assoc
    have key : ∀ (args : List α) (x y : α), args.foldl op (op x y) = op x (args.foldl op y) := by
      intro args
      induction args with
      | nil => intro x y; rfl
      | cons z args ih => intro x y; simp only [List.foldl_cons]; rw [assoc, ih]
    intro x args
    induction args generalizing x with
    | nil => rfl
    | cons y rest ih =>
      rw [foldOp_cons, ih]
      unfold leftFold
      rw [List.foldl_cons, key]

theorem natAbs_nonneg (l : List Int) : 0 ≤ (l.map fun x => (x.natAbs : Int)).sum := by
  induction l with
  | nil => simp
  | cons x l ih => simp only [List.map_cons, List.sum_cons]; omega

theorem sumD_near (args : List Int) : ∀ x : Int,
    growth args.length * ((((x :: args).map fun x => (x.natAbs : Int)).sum : Int) : ℚ) ≤ maxDbl →
    Near args.length (sumD (.fin x) (args.map .fin)) (x :: args).sum ((x :: args).map fun x => (x.natAbs : Int)).sum := by
  induction args with
  | nil =>
    intro x _
    have := Near.self 0 x
    simpa [sumD, foldOp] using this
  | cons y rest ih =>
    intro x hb
    have h0 := natAbs_nonneg (y :: rest)
    unfold sumD
    rw [List.map_cons, foldOp_cons]
    rw [List.sum_cons, List.map_cons, List.sum_cons]
    rw [List.map_cons, List.sum_cons] at hb
    have hx0 : (0 : ℚ) ≤ ((x.natAbs : Int) : ℚ) := Int.cast_nonneg (Int.natCast_nonneg _)
    have h0' : (0 : ℚ) ≤ ((((y :: rest).map fun x => (x.natAbs : Int)).sum : Int) : ℚ) := Int.cast_nonneg h0
    have hg : growth rest.length ≤ growth (y :: rest).length := Verif.Fenwick.growth_mono (by simp)
    have hg1 : 0 ≤ growth rest.length := le_trans zero_le_one (Verif.Fenwick.growth_one_le _)
    have hb' : growth rest.length * (((x.natAbs : Int) + ((y :: rest).map fun x => (x.natAbs : Int)).sum : Int) : ℚ) ≤ maxDbl := by
      refine le_trans (mul_le_mul_of_nonneg_right hg ?_) hb
      rw [Int.cast_add]
      exact add_nonneg hx0 h0'
    have hi := ih y (le_trans (mul_le_mul_of_nonneg_left (by rw [Int.cast_add]; exact le_add_of_nonneg_left hx0) hg1) hb')
    exact (Near.self rest.length x).add hi hb'

/-- With rounding: for finite arguments and no overflow in sight, the variadic sum differs from the exact sum by at most `(1 + 2^-53)^n - 1` times
the sum of the magnitudes, where `n` is the number of additions. -/
theorem C197_error_partial (x : Int) (args : List Int)
    (hb : (1 + 1 / 2 ^ 53) ^ args.length * ((((x :: args).map fun x => (x.natAbs : Int)).sum : Int) : ℚ) ≤ maxDbl) :
    ∃ r : Int, sumD (.fin x) (args.map .fin) = .fin r ∧ |(r : ℚ) - ((x :: args).sum : Int)| ≤
      ((1 + 1 / 2 ^ 53) ^ args.length - 1) * ((((x :: args).map fun x => (x.natAbs : Int)).sum : Int) : ℚ) := by
  obtain ⟨r, hr, h1, -⟩ := sumD_near args x hb
  exact ⟨r, hr, h1⟩

/-- For whole multiples of one power of two, small enough for 53 bits in total, both orders give the exact sum. -/
theorem C197_whole_partial {k : Nat} (hk : k ≤ 2044) (args : List Int) : ∀ x : Int,
    ((x :: args).map fun x => (x.natAbs : Int)).sum ≤ 2 ^ 53 →
    sumD (.fin (x * 2 ^ k)) (args.map fun x => .fin (x * 2 ^ k)) = .fin ((x :: args).sum * 2 ^ k) := by
  induction args with
  | nil => intro x _; simp [sumD, foldOp]
  | cons y rest ih =>
    intro x hb
    have habs : ∀ l : List Int, (l.sum.natAbs : Int) ≤ (l.map fun x => (x.natAbs : Int)).sum := by
      intro l
      induction l with
      | nil => simp
      | cons a l ih => simp only [List.map_cons, List.sum_cons]; omega
    have h1 := habs (y :: rest)
    rw [List.map_cons, List.sum_cons] at hb
    have := ih y (by omega)
    unfold sumD at this ⊢
    rw [List.map_cons, foldOp_cons, this]
    have e : Dbl.add (.fin (x * 2 ^ k)) (.fin ((y :: rest).sum * 2 ^ k)) = .fin ((x + (y :: rest).sum) * 2 ^ k) := by
      rw [add_exact]
      · rw [Int.add_mul]
      · rw [← Int.add_mul]
        refine isDbl_mul (by omega) ?_ (Or.inl hk)
        generalize (y :: rest).sum = t at h1
        omega
    rw [e, List.sum_cons (a := x)]

/-! ### Minimum and maximum -/

theorem extremum_nan (better : Dbl → Dbl → Bool) (h : ∀ y, better y .nan = false) (args : List Dbl) : extremum better .nan args = .nan := by
  unfold extremum
  induction args with
  | nil => rfl
  | cons y args ih =>
    rw [List.foldl_cons, h]
    exact ih

theorem extremum_number (better : Dbl → Dbl → Bool) (le : Dbl → Dbl → Prop) (hrefl : ∀ a, a ≠ .nan → le a a)
    (htrans : ∀ a b c, le a b → le b c → le a c) (hn : ∀ y, better .nan y = false)
    (h1 : ∀ a b, better a b = true → le a b) (h2 : ∀ a b, a ≠ .nan → b ≠ .nan → better a b = false → le b a) (args : List Dbl) :
    ∀ x, x ≠ .nan → extremum better x args ∈ x :: args ∧ extremum better x args ≠ .nan ∧
      ∀ y ∈ x :: args, y ≠ .nan → le (extremum better x args) y := by
  unfold extremum
  induction args with
  | nil => intro x hx; refine ⟨by simp, hx, fun y hy hyn => ?_⟩; rw [List.mem_singleton] at hy; subst hy; exact hrefl _ hx
  | cons z rest ih =>
    intro x hx
    rw [List.foldl_cons]
    cases hb : better z x with
    | true =>
      have hz : z ≠ .nan := by rintro rfl; rw [hn] at hb; cases hb
      obtain ⟨m, hne, hm⟩ := ih z hz
      rw [if_pos rfl]
      refine ⟨List.mem_cons_of_mem _ m, hne, fun y hy hyn => ?_⟩
      rcases List.mem_cons.1 hy with rfl | hy
      · exact htrans _ _ _ (hm z (by simp) hz) (h1 _ _ hb)
      · exact hm y hy hyn
    | false =>
      obtain ⟨m, hne, hm⟩ := ih x hx
      rw [if_neg (by simp)]
      refine ⟨?_, hne, fun y hy hyn => ?_⟩
      · rcases List.mem_cons.1 m with m | m
        · exact List.mem_cons.2 (Or.inl m)
        · exact List.mem_cons_of_mem _ (List.mem_cons_of_mem _ m)
      · rcases List.mem_cons.1 hy with rfl | hy
        · exact hm _ (by simp) hyn
        · rcases List.mem_cons.1 hy with rfl | hy
          · exact htrans _ _ _ (hm x (by simp) hx) (h2 _ _ hyn hx hb)
          · exact hm y (List.mem_cons_of_mem _ hy) hyn

/-- Minimum and maximum are right if the first argument is a number, whatever NaNs follow; if it is a NaN, so is the result, whatever numbers
follow. -/
theorem C197_extremes_partial (x : Dbl) (args : List Dbl) :
    (x ≠ .nan → IsLeast (x :: args) (minD x args) ∧ IsGreatest (x :: args) (maxD x args)) ∧
    (x = .nan → minD x args = .nan ∧ maxD x args = .nan) := by
  refine ⟨fun hx => ⟨?_, ?_⟩, ?_⟩
  · exact extremum_number Dbl.lt Le (fun _ => Le.refl) (fun _ _ _ => Le.trans) (fun _ => rfl) (fun _ _ => lt_true) (fun _ _ => lt_false) args x hx
  · exact extremum_number (fun a b => Dbl.lt b a) (fun a b => Le b a) (fun _ => Le.refl) (fun _ _ _ h h' => h'.trans h)
      (fun y => by cases y <;> rfl) (fun _ _ => lt_true) (fun a b ha hb h => lt_false hb ha h) args x hx
  · rintro rfl
    exact ⟨extremum_nan _ (fun y => by cases y <;> rfl) args, extremum_nan _ (fun _ => rfl) args⟩

/-- Without NaN the order of the arguments does not matter to minimum and maximum. -/
theorem C197_order_partial {x y : Dbl} {args args' : List Dbl} (hp : (x :: args).Perm (y :: args')) (hn : .nan ∉ x :: args) :
    minD x args = minD y args' ∧ maxD x args = maxD y args' := by
  have hx : x ≠ .nan := fun e => hn (by simp [e])
  have hy : y ≠ .nan := fun e => hn (hp.symm.subset (by simp [e]))
  obtain ⟨⟨a1, a2, a3⟩, b1, b2, b3⟩ := (C197_extremes_partial x args).1 hx
  obtain ⟨⟨c1, c2, c3⟩, d1, d2, d3⟩ := (C197_extremes_partial y args').1 hy
  exact ⟨Le.antisymm (a3 _ (hp.symm.subset c1) c2) (c3 _ (hp.subset a1) a2), Le.antisymm (d3 _ (hp.subset b1) b2) (b3 _ (hp.symm.subset d1) d2)⟩

/-- `sum_t<double>{}(2^53, 1, 1)` is `2^53 + 2`, but `2^53 + 1 + 1` is `2^53`. -/
theorem C197_counterexample : ¬ C197_statement := by
  intro h
  have := (h (.fin (2 ^ 53)) [.fin 1, .fin 1]).1
  revert this
  decide +kernel

/-- The minimum of a NaN and 1 depends on their order. -/
theorem C197_counterexample_nan : minD .nan [.fin 1] = .nan ∧ minD (.fin 1) [.nan] = .fin 1 ∧ maxD .nan [.fin 1, .inf false] = .nan ∧
    ¬ IsLeast [.nan, .fin 1] (minD .nan [.fin 1]) := by
  refine ⟨by decide, by decide, by decide, fun h => h.2.1 (by decide)⟩

example : sumD (.fin (2 ^ 53)) [.fin 1, .fin 1] = .fin (2 ^ 53 + 2) ∧ leftFold Dbl.add (.fin (2 ^ 53)) [.fin 1, .fin 1] = .fin (2 ^ 53) := by
  decide +kernel

example : minD (.fin 3) [.nan, .fin (-4), .inf false, .fin 9] = .fin (-4) ∧ maxD (.fin 3) [.nan, .fin (-4), .fin 9] = .fin 9 := by decide

end Verif.Tools
