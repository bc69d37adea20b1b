import Verif.Common

/-!
C213: `from_string` (tools/enum_factory.h) for enumerations of every underlying integer type.

In `fromString` (C81) enumerators are natural numbers and `value` is counted up.  Here an enumerator is a value of the underlying type,
signed or unsigned, of up to 64 bits, and the loop converts it to `size_t` and back as the code does (enum_factory.h:60).  A conversion to
a type that cannot hold the value takes it modulo the number of values ([conv.integral]; for signed types this is left to the
implementation before C++20, and all compilers do it).  The loop may run for ever, so it gets a number of rounds.
-/

namespace Verif.Tools.Enum

/-- The underlying type: `bits` bits, signed or not. -/
structure Under where
  signed : Bool
  bits : Nat

/-- The value is one of the type. -/
def Under.Has (u : Under) (v : Int) : Prop :=
  if u.signed then -2 ^ (u.bits - 1) ≤ v ∧ v < 2 ^ (u.bits - 1) else 0 ≤ v ∧ v < 2 ^ u.bits

/-- `static_cast<size_t>(value)`. -/
def toSize (v : Int) : Nat := (v % 2 ^ 64).toNat

/-- `static_cast<T>(n)` for a `size_t`. -/
def Under.ofSize (u : Under) (n : Nat) : Int :=
  let r := (n : Int) % 2 ^ u.bits
  if u.signed ∧ 2 ^ (u.bits - 1) ≤ r then r - 2 ^ u.bits else r

/-- `value = static_cast<T>(static_cast<size_t>(value)+1)` (enum_factory.h:60). -/
def Under.next (u : Under) (v : Int) : Int := u.ofSize ((toSize v + 1) % W)

/-- The loop of `from_string` (enum_factory.h:57-66) at `value`, for at most `rounds` tests of its condition: the result and the values
that `std::to_string` is called with; `none` if it still runs. -/
def loop (u : Under) (name : Int → String) (str : String) (maximum : Int) : Nat → Int → Option (Int × List Int)
  | 0, _ => none
  | rounds + 1, value =>
    if value < maximum then                                       -- :59
      if str = name value then some (value, [value])              -- :62-65
      else (loop u name str maximum rounds (u.next value)).map fun r => (r.1, value :: r.2)
    else some (maximum, [])                                       -- :56

/-- `from_string<T, minimum, maximum>(str)` (enum_factory.h:53-68). -/
def fromString (u : Under) (name : Int → String) (minimum maximum : Int) (rounds : Nat) (str : String) : Option (Int × List Int) :=
  loop u name str maximum rounds minimum

/-- The `std::to_string` of the documentation (enum_factory.h:27-38): `names` has an entry for each value from 0 to `MAX`. -/
def docName (names : List String) (max : Int) (d : Int) : String := names.getD (min (toSize d) (toSize max)) ""

/-- The `n` values from `v`. -/
def upFrom (v : Int) (n : Nat) : List Int := (List.range n).map fun (i : Nat) => v + (i : Int)

theorem upFrom_succ (v : Int) (n : Nat) : upFrom v (n + 1) = v :: upFrom (v + 1) n := by
  unfold upFrom
  rw [List.range_succ_eq_map, List.map_cons, List.map_map]
  simp only [Int.natCast_zero, Int.add_zero, List.cons.injEq, true_and]
  apply List.map_congr_left
  intro i _
  simp only [Function.comp_apply]
  omega

/-! ### The conversions -/

theorem size_mod {b : Nat} (hb : b ≤ 64) (v : Int) : (((toSize v + 1) % W : Nat) : Int) % 2 ^ b = (v + 1) % 2 ^ b := by
  have h64 : (0 : Int) < 2 ^ 64 := by decide
  have e1 : ((toSize v : Nat) : Int) = v % 2 ^ 64 := by
    unfold toSize
    exact Int.toNat_of_nonneg (Int.emod_nonneg _ (by decide))
  have e2 : (((toSize v + 1) % W : Nat) : Int) = (v % 2 ^ 64 + 1) % 2 ^ 64 := by
    rw [Int.natCast_emod, Int.natCast_add, e1]
    rfl
  have hd : (2 : Int) ^ b ∣ 2 ^ 64 := ⟨2 ^ (64 - b), by rw [← Int.pow_add, Nat.add_sub_cancel' hb]⟩
  rw [e2, Int.emod_emod_of_dvd _ hd, Int.add_emod, Int.emod_emod_of_dvd _ hd, ← Int.add_emod]

/-- Counting up is exact below another value of the type. -/
theorem next_eq {u : Under} (h1 : 1 ≤ u.bits) (h2 : u.bits ≤ 64) {v m : Int} (hv : u.Has v) (hm : u.Has m) (hlt : v < m) :
    u.next v = v + 1 := by
  obtain ⟨s, b⟩ := u
  simp only at h1 h2
  unfold Under.next Under.ofSize
  unfold Under.Has at hv hm
  simp only at hv hm ⊢
  rw [size_mod h2]
  have hp : (2 : Int) ^ b = 2 * 2 ^ (b - 1) := by
    obtain ⟨c, rfl⟩ : ∃ c, b = c + 1 := ⟨b - 1, by omega⟩
    rw [Nat.add_sub_cancel, Int.pow_succ, Int.mul_comm]
  have hpos : (0 : Int) < 2 ^ (b - 1) := Int.pow_pos (by decide)
  cases s with
  | false =>
    simp only [Bool.false_eq_true, false_and, if_false] at hv hm ⊢
    exact Int.emod_eq_of_lt (by omega) (by omega)
  | true =>
    simp only [if_true, true_and] at hv hm ⊢
    by_cases h0 : 0 ≤ v + 1
    · rw [Int.emod_eq_of_lt h0 (by omega), if_neg (by omega)]
    · have e : (v + 1) % 2 ^ b = v + 1 + 2 ^ b := by
        rw [← Int.add_emod_right]
        exact Int.emod_eq_of_lt (by omega) (by omega)
      rw [e, if_pos (by omega)]
      omega

theorem has_between {u : Under} {v w m : Int} (hv : u.Has v) (hm : u.Has m) (h1 : v ≤ w) (h2 : w ≤ m) : u.Has w := by
  unfold Under.Has at *
  split at hv
  · next h => rw [if_pos h] at hm ⊢; omega
  · next h => rw [if_neg h] at hm ⊢; omega

theorem loop_skip {u : Under} (h1 : 1 ≤ u.bits) (h2 : u.bits ≤ 64) {name : Int → String} {str : String} {m : Int} (hm : u.Has m) (n : Nat) :
    ∀ (rounds : Nat) (v : Int), u.Has v → v + n ≤ m → (∀ w, v ≤ w → w < v + n → str ≠ name w) →
      loop u name str m (n + rounds) v = (loop u name str m rounds (v + n)).map fun r => (r.1, upFrom v n ++ r.2) := by
  induction n with
  | zero =>
    intro rounds v _ _ _
    rw [Nat.zero_add, Int.natCast_zero, Int.add_zero]
    have : (fun r : Int × List Int => (r.1, upFrom v 0 ++ r.2)) = id := by funext r; rfl
    rw [this, Option.map_id, id]
  | succ n ih =>
    intro rounds v hv hle hne
    rw [Nat.add_right_comm, loop, if_pos (by omega), if_neg (hne v (by omega) (by omega)), next_eq h1 h2 hv hm (by omega),
      ih rounds (v + 1) (has_between hv hm (by omega) (by omega)) (by omega) (fun w g1 g2 => hne w (by omega) (by omega)), Option.map_map,
      show v + 1 + (n : Int) = v + ((n + 1 : Nat) : Int) by omega]
    congr 1
    funext r
    rw [upFrom_succ]
    rfl

/-! ### C213 -/

/-- **C213**: the first value from `minimum` below `maximum` whose name is the string is found, after its name and those of the values
before it were asked for. -/
theorem C213_first {u : Under} (h1 : 1 ≤ u.bits) (h2 : u.bits ≤ 64) (name : Int → String) {minimum maximum v : Int} (hmin : u.Has minimum)
    (hmax : u.Has maximum) (g1 : minimum ≤ v) (g2 : v < maximum) (hfirst : ∀ w, minimum ≤ w → w < v → name v ≠ name w) (rounds : Nat)
    (hr : v - minimum < rounds) :
    fromString u name minimum maximum rounds (name v) = some (v, upFrom minimum ((v - minimum).toNat + 1)) := by
  obtain ⟨n, hn⟩ : ∃ n : Nat, v = minimum + n := ⟨(v - minimum).toNat, by omega⟩
  obtain ⟨r, rfl⟩ : ∃ r, rounds = n + (r + 1) := ⟨rounds - n - 1, by omega⟩
  unfold fromString
  rw [loop_skip h1 h2 hmax n (r + 1) minimum hmin (by omega) (fun w k1 k2 => hfirst w k1 (by omega)), ← hn, loop, if_pos g2, if_pos rfl,
    Option.map_some]
  have e : (v - minimum).toNat = n := by omega
  rw [e, hn]
  unfold upFrom
  rw [List.range_succ, List.map_append]
  rfl

/-- **C213**: a string that is no name of these values gives `maximum`, after the names of all of them were asked for. -/
theorem C213_unknown {u : Under} (h1 : 1 ≤ u.bits) (h2 : u.bits ≤ 64) (name : Int → String) {minimum maximum : Int} (hmin : u.Has minimum)
    (hmax : u.Has maximum) (str : String) (hno : ∀ w, minimum ≤ w → w < maximum → str ≠ name w) (rounds : Nat)
    (hr : (maximum - minimum).toNat < rounds) :
    fromString u name minimum maximum rounds str = some (maximum, upFrom minimum (maximum - minimum).toNat) := by
  unfold fromString
  by_cases hle : minimum ≤ maximum
  · obtain ⟨r, rfl⟩ : ∃ r, rounds = (maximum - minimum).toNat + (r + 1) := ⟨rounds - (maximum - minimum).toNat - 1, by omega⟩
    rw [loop_skip h1 h2 hmax _ (r + 1) minimum hmin (by omega) (fun w k1 k2 => hno w k1 (by omega)), loop, if_neg (by omega), Option.map_some,
      List.append_nil]
  · obtain ⟨r, rfl⟩ : ∃ r, rounds = r + 1 := ⟨rounds - 1, by omega⟩
    rw [loop, if_neg (by omega), show (maximum - minimum).toNat = 0 by omega]
    rfl

/-- C213, exactly: without a match the condition is tested once for each value and once more. -/
theorem C213_rounds {u : Under} (h1 : 1 ≤ u.bits) (h2 : u.bits ≤ 64) (name : Int → String) {minimum maximum : Int} (hmin : u.Has minimum)
    (hmax : u.Has maximum) (str : String) (hno : ∀ w, minimum ≤ w → w < maximum → str ≠ name w) (rounds : Nat) :
    fromString u name minimum maximum rounds str = none ↔ rounds ≤ (maximum - minimum).toNat := by
  constructor
  · intro h
    refine Nat.le_of_not_lt fun hc => ?_
    rw [C213_unknown h1 h2 name hmin hmax str hno rounds hc] at h
    cases h
  · intro h
    cases rounds with
    | zero => rfl
    | succ n =>
      have := loop_skip h1 h2 (name := name) (str := str) hmax (n + 1) 0 minimum hmin (by omega) (fun w k1 k2 => hno w k1 (by omega))
      unfold fromString
      rw [show n + 1 = n + 1 + 0 from rfl, this]
      rfl

/-- C213: with distinct names `from_string` inverts `to_string`. -/
theorem C213_inverse {u : Under} (h1 : 1 ≤ u.bits) (h2 : u.bits ≤ 64) (name : Int → String) {minimum maximum v : Int} (hmin : u.Has minimum)
    (hmax : u.Has maximum) (hdist : ∀ x y, minimum ≤ x → x < maximum → minimum ≤ y → y < maximum → name x = name y → x = y)
    (g1 : minimum ≤ v) (g2 : v < maximum) (rounds : Nat) (hr : v - minimum < rounds) :
    (fromString u name minimum maximum rounds (name v)).map Prod.fst = some v := by
  rw [C213_first h1 h2 name hmin hmax g1 g2 (fun w k1 k2 e => by
    have := hdist v w g1 g2 k1 (by omega) e
    omega) rounds hr]
  rfl

/-! ### The `to_string` of the documentation -/

theorem toSize_nonneg {v : Int} (h0 : 0 ≤ v) (h : v < 2 ^ 64) : toSize v = v.toNat := by
  unfold toSize
  rw [Int.emod_eq_of_lt h0 h]

theorem has_lt {u : Under} (h1 : 1 ≤ u.bits) (h2 : u.bits ≤ 64) {v : Int} (hv : u.Has v) : -2 ^ 63 ≤ v ∧ v < 2 ^ 64 := by
  have a : (2 : Int) ^ (u.bits - 1) ≤ 2 ^ 63 := by
    have := Nat.pow_le_pow_right (show 0 < 2 by decide) (show u.bits - 1 ≤ 63 by omega)
    exact_mod_cast this
  have b : (2 : Int) ^ u.bits ≤ 2 ^ 64 := by
    have := Nat.pow_le_pow_right (show 0 < 2 by decide) h2
    exact_mod_cast this
  unfold Under.Has at hv
  split at hv
  · have : (2 : Int) ^ 63 < 2 ^ 64 := by decide
    omega
  · have : (0 : Int) < 2 ^ 63 := by decide
    omega

theorem docName_low {u : Under} (h1 : 1 ≤ u.bits) (h2 : u.bits ≤ 64) (names : List String) {max v : Int} (hm : u.Has max) (h0 : 0 ≤ v)
    (hv : v ≤ max) : docName names max v = names.getD v.toNat "" := by
  have := (has_lt h1 h2 hm).2
  unfold docName
  rw [toSize_nonneg h0 (by omega), toSize_nonneg (by omega) (by omega), Nat.min_eq_left (by omega)]

/-- Values that have no name of their own get that of `MAX`: those above `MAX`, and the negative ones. -/
theorem docName_other {u : Under} (h1 : 1 ≤ u.bits) (h2 : u.bits ≤ 64) (names : List String) {max v : Int} (hm : u.Has max) (hv : u.Has v)
    (h0 : 0 ≤ max) (ho : v < 0 ∨ max ≤ v) : docName names max v = docName names max max := by
  have a := has_lt h1 h2 hm
  have b := has_lt h1 h2 hv
  have c : toSize max ≤ toSize v := by
    rcases ho with h | h
    · have e : toSize v = (v + 2 ^ 64).toNat := by
        unfold toSize
        rw [← Int.add_emod_right, Int.emod_eq_of_lt (by omega) (by omega)]
      by_cases hs : u.signed
      · rw [e, toSize_nonneg h0 a.2]
        unfold Under.Has at hm
        rw [if_pos hs] at hm
        have : (2 : Int) ^ (u.bits - 1) ≤ 2 ^ 63 := by
          have := Nat.pow_le_pow_right (show 0 < 2 by decide) (show u.bits - 1 ≤ 63 by omega)
          exact_mod_cast this
        have : (2 : Int) ^ 64 = 2 ^ 63 + 2 ^ 63 := by decide
        omega
      · unfold Under.Has at hv
        rw [if_neg hs] at hv
        omega
    · rw [toSize_nonneg h0 a.2, toSize_nonneg (by omega) b.2]
      omega
  unfold docName
  rw [Nat.min_eq_right c, Nat.min_self]

/-- C213 for the documented `to_string` with distinct names, and the default bounds: a value below `MAX` comes back, any other value of the type
gives `MAX`. -/
theorem C213_documented {u : Under} (h1 : 1 ≤ u.bits) (h2 : u.bits ≤ 64) (names : List String) {max v : Int} (hm : u.Has max) (hv : u.Has v)
    (h0 : 0 ≤ max) (hl : names.length = max.toNat + 1) (hd : names.Nodup) (rounds : Nat) (hr : max < rounds) :
    (fromString u (docName names max) 0 max rounds (docName names max v)).map Prod.fst = some (if 0 ≤ v ∧ v < max then v else max) := by
  have hzero : u.Has 0 := by
    unfold Under.Has
    have : (0 : Int) < 2 ^ (u.bits - 1) := Int.pow_pos (by decide)
    have : (0 : Int) < 2 ^ u.bits := Int.pow_pos (by decide)
    split <;> omega
  have inj : ∀ x y : Int, 0 ≤ x → x ≤ max → 0 ≤ y → y ≤ max → docName names max x = docName names max y → x = y := by
    intro x y hx0 hx hy0 hy e
    rw [docName_low h1 h2 names hm hx0 hx, docName_low h1 h2 names hm hy0 hy, List.getD_eq_getElem?_getD, List.getD_eq_getElem?_getD,
      List.getElem?_eq_getElem (by omega), List.getElem?_eq_getElem (by omega), Option.getD_some, Option.getD_some] at e
    have := (List.getElem_inj hd).1 e
    omega
  by_cases hc : 0 ≤ v ∧ v < max
  · rw [if_pos hc]
    exact C213_inverse h1 h2 _ hzero hm (fun x y a b c d => inj x y a (by omega) c (by omega)) hc.1 hc.2 rounds (by omega)
  · rw [if_neg hc, docName_other h1 h2 names hm hv h0 (by omega), C213_unknown h1 h2 _ hzero hm _ (fun w k1 k2 e => by
      have := inj max w h0 (Int.le_refl _) k1 (by omega) e
      omega) rounds (by omega)]
    rfl

/-- C213: with the documented `to_string` and a negative `minimum`, the name of `MAX` gives `minimum`. -/
theorem C213_negative {u : Under} (h1 : 1 ≤ u.bits) (h2 : u.bits ≤ 64) (names : List String) {minimum max : Int} (hm : u.Has max)
    (hv : u.Has minimum) (h0 : 0 ≤ max) (hneg : minimum < 0) (rounds : Nat) (hr : 0 < rounds) :
    (fromString u (docName names max) minimum max rounds (docName names max max)).map Prod.fst = some minimum := by
  rw [← docName_other h1 h2 names hm hv h0 (.inl hneg), C213_first h1 h2 _ hv hm (Int.le_refl _) (by omega) (fun w a b => by omega) rounds (by omega)]
  rfl

/-- An enumeration over `signed char` from -2 to 3, and one over `unsigned char` whose `MAX` is 255. -/
example : fromString ⟨true, 8⟩ (fun v => toString v) (-2) 3 9 "0" = some (0, [-2, -1, 0]) := by decide +kernel
example : fromString ⟨true, 8⟩ (fun v => toString v) (-2) 3 6 "3" = some (3, [-2, -1, 0, 1, 2]) := by decide +kernel
example : fromString ⟨true, 8⟩ (fun v => toString v) (-2) 3 5 "3" = none := by decide +kernel
example : (fromString ⟨false, 8⟩ (fun v => toString v) 250 255 9 "256") = some (255, [250, 251, 252, 253, 254]) := by decide +kernel
example : (fromString ⟨true, 32⟩ (docName ["first", "second", "MAX"] 2) 0 2 3 "second").map Prod.fst = some 1 := by decide +kernel
example : (fromString ⟨true, 32⟩ (docName ["first", "second", "MAX"] 2) (-1) 2 3 "MAX").map Prod.fst = some (-1) := by decide +kernel

end Verif.Tools.Enum
