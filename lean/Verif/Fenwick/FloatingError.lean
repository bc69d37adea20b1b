import Verif.Fenwick.FloatingProps
import Verif.Fenwick.Cost
import Mathlib.Algebra.Order.Field.Rat
import Mathlib.Algebra.Order.Ring.Abs
import Mathlib.Tactic.Linarith
import Mathlib.Tactic.Positivity

/-!
C191: how far the results of a Fenwick tree of `double`s are from the exact sums, when they are rounded.
-/

namespace Verif.Fenwick
open Spec

/-- Half the distance from 1 to the next double: the greatest relative error of one addition. -/
def unitRoundoff : ℚ := 1 / 2 ^ 53

/-- What `N` additions, one on top of the other, make of a factor 1 at most. -/
def growth (N : Nat) : ℚ := (1 + unitRoundoff) ^ N

theorem growth_one_le (N : Nat) : 1 ≤ growth N := one_le_pow₀ (by unfold unitRoundoff; norm_num)

theorem growth_mono {N M : Nat} (h : N ≤ M) : growth N ≤ growth M := pow_le_pow_right₀ (by unfold unitRoundoff; norm_num) h

theorem growth_succ (N : Nat) : growth (N + 1) = growth N * (1 + unitRoundoff) := pow_succ _ _

theorem roundNat_le_max {n : Nat} (h : n ≤ maxDbl) : roundNat n ≤ maxDbl := by
  have := roundNat_nearest n (m := 2 ^ 53 - 1) (e := 2045) (by norm_num)
  rw [show (2 ^ 53 - 1) * 2 ^ 2045 = maxDbl from rfl] at this
  generalize maxDbl = M at *
  omega

/-- A result within the range is finite, and its relative error is at most `2^-53`. -/
theorem round_err {n : Int} (h : |(n : ℚ)| ≤ maxDbl) :
    ∃ r : Int, Dbl.round n = .fin r ∧ |(r : ℚ) - n| ≤ unitRoundoff * |(n : ℚ)| := by
  have hn : n.natAbs ≤ maxDbl := by
    have e : |(n : ℚ)| = (n.natAbs : ℚ) := by rw [Nat.cast_natAbs]; push_cast; rfl
    rw [e] at h
    exact_mod_cast h
  have he := roundNat_error n.natAbs
  have hm := roundNat_le_max hn
  have hng : ¬ maxDbl < roundNat n.natAbs := Nat.not_lt.2 hm
  have er : Dbl.round n = .fin (if n < 0 then -(roundNat n.natAbs : Int) else roundNat n.natAbs) := by
    unfold Dbl.round
    exact if_neg hng
  refine ⟨_, er, ?_⟩
  clear er hng hm hn h
  generalize roundNat n.natAbs = z at *
  have he' : 2 ^ 53 * |(if n < 0 then -(z : Int) else z) - n| ≤ |n| := by
    have e1 : |(if n < 0 then -(z : Int) else z) - n| = ((((n.natAbs : Int) - z).natAbs : Nat) : Int) := by
      rw [Int.abs_eq_natAbs]
      have : ((if n < 0 then -(z : Int) else z) - n).natAbs = ((n.natAbs : Int) - z).natAbs := by
        split <;> omega
      rw [this]
    rw [e1, Int.abs_eq_natAbs]
    exact_mod_cast he
  have he2 : ((2 ^ 53 * |(if n < 0 then -(z : Int) else z) - n| : Int) : ℚ) ≤ ((|n| : Int) : ℚ) := by exact_mod_cast he'
  push_cast at he2
  unfold unitRoundoff
  rw [one_div, inv_mul_eq_div, le_div_iff₀ (by norm_num), mul_comm]
  push_cast
  exact he2

/-- The double `c` is an approximation of the exact number `e`, which was added up from numbers with magnitudes `m` in total. -/
def Near (N : Nat) (c : Dbl) (e m : Int) : Prop :=
  ∃ r : Int, c = .fin r ∧ |(r : ℚ) - e| ≤ (growth N - 1) * m ∧ |(e : ℚ)| ≤ m

theorem Near.mono {N M : Nat} {c : Dbl} {e m : Int} (h : Near N c e m) (hM : N ≤ M) : Near M c e m := by
  obtain ⟨r, hr, h1, h2⟩ := h
  refine ⟨r, hr, h1.trans ?_, h2⟩
  have hm : (0 : ℚ) ≤ m := (abs_nonneg _).trans h2
  exact mul_le_mul_of_nonneg_right (by have := growth_mono hM; linarith) hm

theorem Near.self (N : Nat) (v : Int) : Near N (.fin v) v v.natAbs := by
  refine ⟨v, rfl, ?_, ?_⟩
  · rw [sub_self, abs_zero]
    exact mul_nonneg (by have := growth_one_le N; linarith) (by positivity)
  · rw [Int.natCast_natAbs]
    push_cast
    exact le_refl _

theorem near_round {N : Nat} {r e m : Int} (h : |(r : ℚ) - e| ≤ (growth N - 1) * m) (he : |(e : ℚ)| ≤ m) (hb : growth N * m ≤ maxDbl) :
    Near (N + 1) (Dbl.round r) e m := by
  have hm : (0 : ℚ) ≤ m := (abs_nonneg _).trans he
  have hr : |(r : ℚ)| ≤ growth N * m := by
    have : |(r : ℚ)| ≤ |(r : ℚ) - e| + |(e : ℚ)| := by
      have := abs_add_le ((r : ℚ) - e) e
      rwa [sub_add_cancel] at this
    linarith [this]
  obtain ⟨s, hs, hse⟩ := round_err (hr.trans hb)
  refine ⟨s, hs, ?_, he⟩
  have ht : |(s : ℚ) - e| ≤ |(s : ℚ) - r| + |(r : ℚ) - e| := by
    have := abs_add_le ((s : ℚ) - r) (r - e)
    rwa [sub_add_sub_cancel] at this
  have hu : (0 : ℚ) ≤ unitRoundoff := by unfold unitRoundoff; norm_num
  have h3 : unitRoundoff * |(r : ℚ)| ≤ unitRoundoff * (growth N * m) := mul_le_mul_of_nonneg_left hr hu
  rw [growth_succ]
  calc |(s : ℚ) - e| ≤ unitRoundoff * (growth N * m) + (growth N - 1) * m := by linarith
    _ = (growth N * (1 + unitRoundoff) - 1) * m := by ring

theorem Near.add {N : Nat} {c c' : Dbl} {e e' m m' : Int} (h : Near N c e m) (h' : Near N c' e' m')
    (hb : growth N * ((m + m' : Int) : ℚ) ≤ maxDbl) : Near (N + 1) (Dbl.add c c') (e + e') (m + m') := by
  obtain ⟨r, rfl, h1, h2⟩ := h
  obtain ⟨r', rfl, h1', h2'⟩ := h'
  have e0 : Dbl.add (.fin r) (.fin r') = Dbl.round (r + r') := rfl
  rw [e0]
  refine near_round ?_ ?_ hb
  · push_cast
    have := abs_add_le ((r : ℚ) - e) (r' - e')
    rw [show (r : ℚ) - e + (r' - e') = r + r' - (e + e') by ring] at this
    rw [mul_add]
    linarith
  · push_cast
    have := abs_add_le (e : ℚ) e'
    linarith

theorem Near.neg {N : Nat} {c : Dbl} {e m : Int} (h : Near N c e m) : Near N c.neg (-e) m := by
  obtain ⟨r, rfl, h1, h2⟩ := h
  refine ⟨-r, rfl, ?_, ?_⟩
  · push_cast
    rw [show (-(r : ℚ)) - -e = -(r - e) by ring, abs_neg]
    exact h1
  · push_cast
    rw [abs_neg]
    exact h2

theorem Near.sub {N : Nat} {c c' : Dbl} {e e' m m' : Int} (h : Near N c e m) (h' : Near N c' e' m')
    (hb : growth N * ((m + m' : Int) : ℚ) ≤ maxDbl) : Near (N + 1) (Dbl.sub c c') (e - e') (m + m') := by
  have := h.add h'.neg hb
  rwa [← Int.sub_eq_add_neg] at this

/-- The cells of the tree approximate the sums of the elements `b`, whose magnitudes are at most `w`. -/
structure App (N : Nat) (cells : List Dbl) (b w : List Int) : Prop where
  len : cells.length = b.length + 1
  lenW : cells.length ≤ W
  same : w.length = b.length
  pos : ∀ x ∈ w, 0 ≤ x
  zero : cells[0]? = some (.fin 0)
  cell : ∀ i, 1 ≤ i → i ≤ b.length →
    ∃ c, cells[i]? = some c ∧ Near N c (slice b (i - low i) i).sum (slice w (i - low i) i).sum

theorem sublist_sum_le {a b : List Int} (hs : b.Sublist a) : (∀ x ∈ a, 0 ≤ x) → b.sum ≤ a.sum := by
  induction hs with
  | slnil => exact fun _ => Int.le_refl _
  | cons x _ ih =>
    intro h
    have := ih fun y hy => h y (by simp [hy])
    have := h x (by simp)
    rw [List.sum_cons]
    omega
  | cons_cons x _ ih =>
    intro h
    have := ih fun y hy => h y (by simp [hy])
    rw [List.sum_cons, List.sum_cons]
    omega

theorem slice_sum_le {w : List Int} (h : ∀ x ∈ w, 0 ≤ x) (i j : Nat) : (slice w i j).sum ≤ w.sum :=
  sublist_sum_le ((List.drop_sublist _ _).trans (List.take_sublist _ _)) h

theorem sum_slice_modify (a : List Int) (k lo hi : Nat) (v : Int) (hk : k < a.length) :
    (slice (a.modify k (· + v)) lo hi).sum = if lo ≤ k ∧ k < hi then (slice a lo hi).sum + v else (slice a lo hi).sum := by
  have h := F_slice_modify (sumT_lawful (T := Int)) v a k lo hi hk
  simp only [F_sum] at h
  exact h

theorem pos_modify {w : List Int} (h : ∀ x ∈ w, 0 ≤ x) (k : Nat) {v : Int} (hv : 0 ≤ v) : ∀ x ∈ w.modify k (· + v), 0 ≤ x := by
  intro x hx
  obtain ⟨j, hj⟩ := List.mem_iff_getElem?.1 hx
  rw [List.getElem?_modify] at hj
  cases hw : w[j]? with
  | none => rw [hw] at hj; simp at hj
  | some y =>
    rw [hw] at hj
    have := h y (List.mem_of_getElem? hw)
    simp only [Option.map_eq_map, Option.map_some, Option.some.injEq] at hj
    split at hj <;> omega

theorem App.mono {N M : Nat} {cells : List Dbl} {b w : List Int} (h : App N cells b w) (hM : N ≤ M) : App M cells b w :=
  ⟨h.len, h.lenW, h.same, h.pos, h.zero, fun i h1 h2 => by
    obtain ⟨c, hc, hn⟩ := h.cell i h1 h2
    exact ⟨c, hc, hn.mono hM⟩⟩

theorem App.update {N : Nat} {cells : List Dbl} {b w : List Int} (h : App N cells b w) {p : Nat} {v : Int} (h1 : 1 ≤ p) (h2 : p ≤ b.length)
    (hb : growth N * ((w.sum + v.natAbs : Int) : ℚ) ≤ maxDbl) :
    App (N + 1) (updateCells dblT cells p (.fin v)) (b.modify (p - 1) (· + v)) (w.modify (p - 1) (· + (v.natAbs : Int))) where
  len := by rw [updateCells_length, h.len, List.length_modify]
  lenW := by rw [updateCells_length]; exact h.lenW
  same := by rw [List.length_modify, List.length_modify]; exact h.same
  pos := pos_modify h.pos _ (by omega)
  zero := by
    rw [updateCells_get _ _ _ _ (by omega) h.lenW, if_neg (by omega)]
    exact h.zero
  cell := by
    intro i hi1 hi2
    rw [List.length_modify] at hi2
    obtain ⟨c, hc, hn⟩ := h.cell i hi1 hi2
    rw [updateCells_get _ _ _ _ (by omega) h.lenW, hc, sum_slice_modify _ _ _ _ _ (by omega),
      sum_slice_modify _ _ _ _ _ (by rw [h.same]; omega)]
    by_cases hp : p ≤ i ∧ i - low i < p
    · rw [if_pos hp, if_pos (by omega), if_pos (by omega)]
      refine ⟨Dbl.add c (.fin v), rfl, hn.add (Near.self N v) ?_⟩
      refine le_trans (mul_le_mul_of_nonneg_left ?_ (by have := growth_one_le N; linarith)) hb
      have := slice_sum_le h.pos (i - low i) i
      exact_mod_cast (by omega : (slice w (i - low i) i).sum + (v.natAbs : Int) ≤ w.sum + v.natAbs)
    · rw [if_neg hp, if_neg (by omega), if_neg (by omega)]
      exact ⟨c, rfl, hn.mono (by omega)⟩

theorem App.loop {N : Nat} {cells : List Dbl} {b w : List Int} (h : App N cells b w) (j : Nat) {M : Nat}
    (hb : growth M * (w.sum : ℚ) ≤ maxDbl) (i : Nat) :
    ∀ (K : Nat) (c : Dbl), 1 ≤ i → i ≤ b.length → i ≤ j → N ≤ K → K + ones i ≤ M + 1 →
    Near K c (slice b (i - low i) j).sum (slice w (i - low i) j).sum →
    ∃ r, queryLoop dblT cells i c = .ok r ∧ Near M r (slice b 0 j).sum (slice w 0 j).sum := by
  induction i using Nat.strongRecOn with
  | _ i ih =>
    intro K c h1 h2 hj hNK hK hc
    have hiW : i < W := by have := h.len; have := h.lenW; omega
    have e : nextQuery i = i - low i := by unfold nextQuery; rw [lsb_eq_low i hiW]
    have ho := ones_sub_low i (by omega)
    have hl := low_pos i (by omega)
    unfold queryLoop
    simp only [e]
    by_cases hz : 0 < i - low i
    · rw [dif_pos ⟨hz, by omega⟩]
      obtain ⟨d, hd, hdn⟩ := h.cell (i - low i) (by omega) (by omega)
      have erd : rd cells (i - low i) = .ok d := by unfold rd; rw [hd]
      rw [erd, Res.bind_ok]
      have e1 : ∀ l : List Int, (slice l (i - low i - low (i - low i)) (i - low i)).sum + (slice l (i - low i) j).sum =
          (slice l (i - low i - low (i - low i)) j).sum := by
        intro l
        rw [← List.sum_append, slice_append (by omega) (by omega)]
      have hones : 0 < ones (i - low i) := by
        have := ones_sub_low (i - low i) hz
        omega
      have hadd := (hdn.mono hNK).add hc (by
        rw [e1]
        refine le_trans ?_ hb
        have hle := slice_sum_le h.pos (i - low i - low (i - low i)) j
        have hnn : (0 : ℚ) ≤ (w.sum : ℚ) := by
          have := slice_sum_le h.pos 0 0
          have e0 : (slice w 0 0).sum = 0 := by simp [slice]
          rw [e0] at this
          exact_mod_cast this
        have hg := growth_one_le K
        have hgm := growth_mono (N := K) (M := M) (by omega)
        calc growth K * (((slice w (i - low i - low (i - low i)) j).sum : Int) : ℚ) ≤ growth K * (w.sum : ℚ) :=
              mul_le_mul_of_nonneg_left (by exact_mod_cast hle) (by linarith)
          _ ≤ growth M * (w.sum : ℚ) := mul_le_mul_of_nonneg_right hgm hnn)
      rw [e1, e1] at hadd
      exact ih (i - low i) (by omega) (K + 1) _ (by omega) (by omega) (by omega) (by omega) (by omega) hadd
    · rw [dif_neg (by omega)]
      have e0 : i - low i = 0 := by omega
      rw [e0] at hc
      exact ⟨c, rfl, hc.mono (by have : 1 ≤ ones i := by omega
                                 omega)⟩

theorem App.prefix {N : Nat} {cells : List Dbl} {b w : List Int} (h : App N cells b w) {i M : Nat} (hi : i ≤ b.length)
    (hM : N + digits b.length ≤ M) (hb : growth M * (w.sum : ℚ) ≤ maxDbl) :
    ∃ r, prefixQuery dblT cells i = .ok r ∧ Near M r (slice b 0 i).sum (slice w 0 i).sum := by
  unfold prefixQuery
  by_cases h0 : i = 0
  · subst h0
    have erd : rd cells 0 = .ok (.fin 0) := by unfold rd; rw [h.zero]
    rw [erd, Res.bind_ok]
    have eq : queryLoop dblT cells 0 (.fin 0) = .ok (.fin 0) := by
      unfold queryLoop
      have : nextQuery 0 = 0 := by unfold nextQuery; omega
      simp only [this]
      rw [dif_neg (by omega)]
    refine ⟨_, eq, ?_⟩
    have e0 : ∀ l : List Int, (slice l 0 0).sum = 0 := fun l => by simp [slice]
    rw [e0, e0]
    exact Near.self M 0
  · obtain ⟨c, hc, hn⟩ := h.cell i (by omega) hi
    have erd : rd cells i = .ok c := by unfold rd; rw [hc]
    rw [erd, Res.bind_ok]
    have := ones_le_digits i
    have := digits_mono hi
    exact h.loop i hb i N c (by omega) hi (Nat.le_refl _) (Nat.le_refl _) (by omega) hn

/-- Nothing is subtracted if the part to be left out was added up to 0. -/
theorem Near.sub_zero {N : Nat} {c : Dbl} {e e' m m' : Int} (h : Near N c e m) (h' : Near N (.fin 0) e' m') :
    Near N c (e - e') (m + m') := by
  obtain ⟨r, rfl, h1, h2⟩ := h
  obtain ⟨r', hr', h1', h2'⟩ := h'
  cases hr'
  refine ⟨r, rfl, ?_, ?_⟩
  · push_cast at h1' ⊢
    have := abs_sub ((r : ℚ) - e) (0 - e')
    rw [show (r : ℚ) - e - (0 - e') = r - (e - e') by ring] at this
    rw [mul_add]
    linarith
  · push_cast
    have := abs_sub (e : ℚ) e'
    linarith

theorem App.range {N : Nat} {cells : List Dbl} {b w : List Int} (h : App N cells b w) {x y M : Nat} (hxy : x ≤ y) (hy : y ≤ b.length)
    (hM : N + digits b.length ≤ M) (hb : growth M * (2 * (w.sum : ℚ)) ≤ maxDbl) :
    ∃ r, rangeQuery dblT cells x y = .ok r ∧
      Near (M + 1) r (slice b (x - 1) y).sum ((slice w 0 y).sum + (slice w 0 (x - 1)).sum) := by
  have hnn : (0 : ℚ) ≤ (w.sum : ℚ) := by
    have := slice_sum_le h.pos 0 0
    have e0 : (slice w 0 0).sum = 0 := by simp [slice]
    rw [e0] at this
    exact_mod_cast this
  have hg := growth_one_le M
  have hb1 : growth M * (w.sum : ℚ) ≤ maxDbl :=
    le_trans (mul_le_mul_of_nonneg_left (by linarith) (by linarith)) hb
  obtain ⟨v, hv, hvn⟩ := h.prefix hy hM hb1
  have hd : ∃ d, (if x ≤ 1 then .ok dblT.zero else prefixQuery dblT cells (x - 1)) = Res.ok d ∧
      Near M d (slice b 0 (x - 1)).sum (slice w 0 (x - 1)).sum := by
    by_cases hx : x ≤ 1
    · rw [if_pos hx]
      refine ⟨_, rfl, ?_⟩
      have e0 : ∀ l : List Int, (slice l 0 (x - 1)).sum = 0 := fun l => by
        rw [show x - 1 = 0 by omega]; simp [slice]
      rw [e0, e0]
      exact Near.self M 0
    · rw [if_neg hx]
      exact h.prefix (by omega) hM hb1
  obtain ⟨d, hd, hdn⟩ := hd
  have es : (slice b 0 y).sum - (slice b 0 (x - 1)).sum = (slice b (x - 1) y).sum := by
    have := slice_append (a := b) (lo := 0) (mid := x - 1) (hi := y) (by omega) (by omega)
    rw [← this, List.sum_append]
    omega
  have hq : rangeQuery dblT cells x y = if dblT.truthy d = true then dblT.rev v d else .ok v := by
    unfold rangeQuery
    by_cases hx : x ≤ 1
    · rw [if_pos hx] at hd
      rw [if_pos hx, hd]
      simp only [Res.bind_ok, hv]
    · rw [if_neg hx] at hd
      rw [if_neg hx, hd]
      simp only [Res.bind_ok, hv]
  rw [hq, ← es]
  by_cases ht : dblT.truthy d = true
  · rw [if_pos ht]
    refine ⟨_, rfl, hvn.sub hdn (le_trans (mul_le_mul_of_nonneg_left ?_ (by linarith)) hb)⟩
    have h1 := slice_sum_le h.pos 0 y
    have h2 := slice_sum_le h.pos 0 (x - 1)
    have : (slice w 0 y).sum + (slice w 0 (x - 1)).sum ≤ 2 * w.sum := by omega
    exact_mod_cast this
  · rw [if_neg ht]
    refine ⟨_, rfl, (Near.sub_zero hvn ?_).mono (by omega)⟩
    have ez : d = .fin 0 := by
      obtain ⟨r, rfl, _, _⟩ := hdn
      have : ¬ (decide (r ≠ 0) = true) := ht
      simp only [ne_eq, decide_not, Bool.not_eq_true', decide_eq_false_iff_not, not_not] at this
      rw [this]
    rw [← ez]
    exact hdn

theorem sum_modify (w : List Int) (k : Nat) (v : Int) (hk : k < w.length) : (w.modify k (· + v)).sum = w.sum + v := by
  have := sum_slice_modify w k 0 w.length v hk
  rw [if_pos ⟨by omega, hk⟩] at this
  have e1 : slice w 0 w.length = w := by simp [slice]
  have e2 : slice (w.modify k (· + v)) 0 w.length = w.modify k (· + v) := by
    unfold slice
    rw [List.drop_zero, List.take_of_length_le (by rw [List.length_modify])]
  rw [e1, e2] at this
  exact this

theorem App.buildLoop (rest : List Int) : ∀ (N : Nat) (cells : List Dbl) (done dw : List Int), dw.length = done.length →
    App N cells (done ++ List.replicate rest.length 0) (dw ++ List.replicate rest.length 0) →
    growth (N + rest.length) * ((dw.sum + (rest.map fun x => (x.natAbs : Int)).sum : Int) : ℚ) ≤ maxDbl →
    App (N + rest.length) (Verif.Fenwick.buildLoop dblT cells (done.length + 1) (rest.map Dbl.fin)) (done ++ rest)
      (dw ++ rest.map fun x => (x.natAbs : Int)) := by
  induction rest with
  | nil => intro N cells done dw _ h _; simpa [Verif.Fenwick.buildLoop] using h
  | cons x rest ih =>
    intro N cells done dw hl h hb
    have e : ∀ (d : List Int) (v : Int), (d ++ List.replicate (x :: rest).length (0 : Int)).modify d.length (· + v)
        = (d ++ [v]) ++ List.replicate rest.length 0 := by
      intro d v
      simp only [List.length_cons, List.replicate_succ]
      rw [modify_append_mid]
      simp
    have hsum : 0 ≤ (rest.map fun x => (x.natAbs : Int)).sum := by
      have := slice_sum_le (w := rest.map fun x => (x.natAbs : Int)) (by
        intro y hy
        obtain ⟨z, _, rfl⟩ := List.mem_map.1 hy
        omega) 0 0
      simpa [slice] using this
    have hdw : 0 ≤ dw.sum := by
      have := slice_sum_le (w := dw) (fun y hy => h.pos y (by simp [hy])) 0 0
      simpa [slice] using this
    have hu := h.update (p := done.length + 1) (v := x) (by omega) (by simp) (by
      refine le_trans ?_ hb
      have e0 : (dw ++ List.replicate (x :: rest).length (0 : Int)).sum = dw.sum := by simp
      rw [e0]
      have hg := growth_one_le N
      have hgm := growth_mono (N := N) (M := N + (x :: rest).length) (by omega)
      have h1 : (0 : ℚ) ≤ ((dw.sum + x.natAbs : Int) : ℚ) := by exact_mod_cast (by omega : (0 : Int) ≤ dw.sum + x.natAbs)
      have h2 : ((dw.sum + x.natAbs : Int) : ℚ) ≤ ((dw.sum + ((x :: rest).map fun x => (x.natAbs : Int)).sum : Int) : ℚ) := by
        rw [List.map_cons, List.sum_cons]
        exact_mod_cast (by omega : dw.sum + x.natAbs ≤ dw.sum + ((x.natAbs : Int) + (rest.map fun x => (x.natAbs : Int)).sum))
      calc growth N * ((dw.sum + x.natAbs : Int) : ℚ) ≤ growth (N + (x :: rest).length) * ((dw.sum + x.natAbs : Int) : ℚ) :=
            mul_le_mul_of_nonneg_right hgm h1
        _ ≤ _ := mul_le_mul_of_nonneg_left h2 (by linarith))
    rw [Nat.add_sub_cancel, e done x] at hu
    have e2 := e dw (x.natAbs : Int)
    rw [hl] at e2
    rw [e2] at hu
    have := ih (N + 1) _ (done ++ [x]) (dw ++ [(x.natAbs : Int)]) (by simp [hl]) hu (by
      have e3 : (dw ++ [(x.natAbs : Int)]).sum + (rest.map fun x => (x.natAbs : Int)).sum = dw.sum + ((x :: rest).map fun x => (x.natAbs : Int)).sum := by
        simp only [List.sum_append, List.sum_nil, List.map_cons, List.sum_cons]
        omega
      have e4 : N + 1 + rest.length = N + (x :: rest).length := by rw [List.length_cons]; omega
      rw [e3, e4]
      exact hb)
    rw [List.map_cons, Verif.Fenwick.buildLoop]
    rw [List.length_append, List.length_singleton, List.append_assoc, List.append_assoc] at this
    rw [List.length_cons, show N + (rest.length + 1) = N + 1 + rest.length by omega, List.map_cons]
    exact this

theorem App.init (n : Nat) (hW : n + 1 ≤ W) : App 0 (List.replicate (n + 1) (.fin 0)) (List.replicate n 0) (List.replicate n 0) where
  len := by simp
  lenW := by simpa using hW
  same := by simp
  pos := by
    intro x hx
    rw [(List.mem_replicate.1 hx).2]
  zero := by simp
  cell := by
    intro i h1 h2
    rw [List.length_replicate] at h2
    refine ⟨.fin 0, by rw [List.getElem?_replicate, if_pos (by omega)], ?_⟩
    have e0 : (slice (List.replicate n (0 : Int)) (i - low i) i).sum = 0 := by
      unfold slice
      rw [List.take_replicate, List.drop_replicate, List.sum_replicate]
      simp
    rw [e0]
    exact Near.self 0 0

/-! ### C191 -/

/-- `update(p, v)` for every pair of a list, one after the other. -/
def updates (f : Tree Dbl) : List (Nat × Int) → Res (Tree Dbl)
  | [] => .ok f
  | (p, v) :: us => do
    let (f, _) ← f.update dblT p (.fin v)
    updates f us

namespace Spec

/-- What the calls do to a plain list: positions outside are ignored. -/
def added (b : List Int) : List (Nat × Int) → List Int
  | [] => b
  | (p, v) :: us => added (if 1 ≤ p ∧ p ≤ b.length then b.modify (p - 1) (· + v) else b) us

/-- The magnitudes of all numbers that went into the tree. -/
def mass (a : List Int) (us : List (Nat × Int)) : Nat := (a.map Int.natAbs).sum + (us.map fun u => u.2.natAbs).sum

end Spec

theorem App.updates (us : List (Nat × Int)) : ∀ {N : Nat} {f : Tree Dbl} {b w : List Int}, f.built = true → App N f.processed b w →
    growth (N + us.length) * ((w.sum + (us.map fun u => (u.2.natAbs : Int)).sum : Int) : ℚ) ≤ maxDbl →
    ∃ f' w', Verif.Fenwick.updates f us = .ok f' ∧ f'.built = true ∧ App (N + us.length) f'.processed (added b us) w' ∧
      (added b us).length = b.length ∧ w'.sum ≤ w.sum + (us.map fun u => (u.2.natAbs : Int)).sum := by
  induction us with
  | nil => intro N f b w hf h _; exact ⟨f, w, rfl, hf, h, rfl, by simp⟩
  | cons u us ih =>
    obtain ⟨p, v⟩ := u
    intro N f b w hf h hb
    obtain ⟨cells, bt⟩ := f
    simp only at hf
    subst hf
    simp only at h
    have hsum : 0 ≤ (us.map fun u => (u.2.natAbs : Int)).sum := by
      have := slice_sum_le (w := us.map fun u => (u.2.natAbs : Int)) (by
        intro y hy
        obtain ⟨z, _, rfl⟩ := List.mem_map.1 hy
        omega) 0 0
      simpa [slice] using this
    have hdw : 0 ≤ w.sum := by
      have := slice_sum_le h.pos 0 0
      simpa [slice] using this
    rw [List.map_cons, List.sum_cons, List.length_cons] at hb
    have hstep : ∃ f1 w1 ok, (⟨cells, true⟩ : Tree Dbl).update dblT p (.fin v) = .ok (f1, ok) ∧ f1.built = true ∧
        App (N + 1) f1.processed (if 1 ≤ p ∧ p ≤ b.length then b.modify (p - 1) (· + v) else b) w1 ∧ w1.sum ≤ w.sum + v.natAbs ∧ 0 ≤ w1.sum := by
      unfold Tree.update
      simp only [Bool.not_true, Bool.false_eq_true, if_false]
      by_cases hc : (1 ≤ p ∧ p ≤ b.length) ∧ v ≠ 0
      · have ht : dblT.truthy (.fin v) = true := by simpa [dblT, Dbl.truthy] using hc.2
        have hl := h.len
        rw [if_pos hc.1, if_pos (by rw [ht, Bool.and_true, decide_eq_true_eq]; omega)]
        refine ⟨_, _, _, rfl, rfl, h.update hc.1.1 hc.1.2 ?_, ?_, ?_⟩
        · refine le_trans ?_ hb
          have hg := growth_one_le N
          have hgm := growth_mono (N := N) (M := N + (us.length + 1)) (by omega)
          have h1 : (0 : ℚ) ≤ ((w.sum + v.natAbs : Int) : ℚ) := by exact_mod_cast (by omega : (0 : Int) ≤ w.sum + v.natAbs)
          have h2 : ((w.sum + v.natAbs : Int) : ℚ) ≤ ((w.sum + ((v.natAbs : Int) + (us.map fun u => (u.2.natAbs : Int)).sum) : Int) : ℚ) := by
            exact_mod_cast (by omega : w.sum + v.natAbs ≤ w.sum + ((v.natAbs : Int) + (us.map fun u => (u.2.natAbs : Int)).sum))
          calc growth N * ((w.sum + v.natAbs : Int) : ℚ) ≤ growth (N + (us.length + 1)) * ((w.sum + v.natAbs : Int) : ℚ) :=
                mul_le_mul_of_nonneg_right hgm h1
            _ ≤ _ := mul_le_mul_of_nonneg_left h2 (by linarith)
        · rw [sum_modify _ _ _ (by rw [h.same]; omega)]
        · rw [sum_modify _ _ _ (by rw [h.same]; omega)]
          omega
      · have hsame : ∀ ok, ∃ f1 w1 ok', (.ok (⟨cells, true⟩, ok) : Res (Tree Dbl × Bool)) = .ok (f1, ok') ∧ f1.built = true ∧
            App (N + 1) f1.processed (if 1 ≤ p ∧ p ≤ b.length then b.modify (p - 1) (· + v) else b) w1 ∧ w1.sum ≤ w.sum + v.natAbs ∧ 0 ≤ w1.sum := by
          intro ok
          refine ⟨_, w, ok, rfl, rfl, ?_, by omega, hdw⟩
          have e : (if 1 ≤ p ∧ p ≤ b.length then b.modify (p - 1) (· + v) else b) = b := by
            by_cases hp : 1 ≤ p ∧ p ≤ b.length
            · have hv : v = 0 := by
                by_cases hv : v = 0
                · exact hv
                · exact absurd ⟨hp, hv⟩ hc
              rw [if_pos hp, hv]
              have e : (fun x : Int => x + 0) = id := by funext x; simp
              rw [e, List.modify_id]
            · rw [if_neg hp]
          rw [e]
          exact h.mono (by omega)
        have hl := h.len
        by_cases ht : (decide (p < cells.length) && dblT.truthy (.fin v)) = true
        · rw [if_pos ht]
          have hp0 : p = 0 := by
            simp only [Bool.and_eq_true, decide_eq_true_eq, dblT, Dbl.truthy, ne_eq] at ht
            by_cases hp : p = 0
            · exact hp
            · exact absurd ⟨⟨by omega, by omega⟩, ht.2⟩ hc
          subst hp0
          rw [updateCells_zero]
          exact hsame _
        · rw [if_neg ht]
          exact hsame _
    obtain ⟨f1, w1, ok, e1, hf1, h1, hw1, hw1'⟩ := hstep
    obtain ⟨f', w', e2, hf', h', hlen, hw'⟩ := ih hf1 h1 (by
      refine le_trans ?_ hb
      rw [show N + 1 + us.length = N + (us.length + 1) by omega]
      refine mul_le_mul_of_nonneg_left ?_ (by have := growth_one_le (N + (us.length + 1)); linarith)
      exact_mod_cast (by omega : w1.sum + (us.map fun u => (u.2.natAbs : Int)).sum ≤ w.sum + ((v.natAbs : Int) + (us.map fun u => (u.2.natAbs : Int)).sum)))
    refine ⟨f', w', ?_, hf', ?_, ?_, ?_⟩
    · rw [Verif.Fenwick.updates, e1, Res.bind_ok]
      exact e2
    · rw [List.length_cons, show N + (us.length + 1) = N + 1 + us.length by omega]
      exact h'
    · rw [added, hlen]
      split
      · rw [List.length_modify]
      · rfl
    · rw [List.map_cons, List.sum_cons]
      omega

theorem natAbs_sum_cast (a : List Int) : (a.map fun x => (x.natAbs : Int)).sum = (((a.map Int.natAbs).sum : Nat) : Int) := by
  induction a with
  | nil => rfl
  | cons x a ih => rw [List.map_cons, List.sum_cons, List.map_cons, List.sum_cons, ih]; push_cast; rfl

theorem natAbs_sum_cast' (us : List (Nat × Int)) : (us.map fun u => (u.2.natAbs : Int)).sum = (((us.map fun u => u.2.natAbs).sum : Nat) : Int) := by
  induction us with
  | nil => rfl
  | cons x a ih => rw [List.map_cons, List.sum_cons, List.map_cons, List.sum_cons, ih]; push_cast; rfl

/-- **C191**, how wrong a rounded sum can be: after the construction from `n` finite doubles and any number of `update`s, the result of every
query differs from the exact sum by at most `2 ((1 + 2^-53)^k - 1)` times the sum of the magnitudes of all numbers that went into the tree, where
`k` is the number of elements and updates plus the number of binary digits of `n` plus 1.  (No sum overflows if twice that sum, grown by this
factor, is within the range of `double`.)  Missing for C191: the results are not the exact ones, and `set_value`. -/
theorem C191_error_partial (a : List Int) (us : List (Nat × Int)) (x y : Nat) (hW : a.length + 1 ≤ W)
    (hmax : (1 + 1 / 2 ^ 53 : ℚ) ^ (a.length + us.length + digits a.length) * (2 * mass a us) ≤ maxDbl) :
    ∃ f r, updates (Tree.empty.build dblT (a.map Dbl.fin) a.length) us = .ok f ∧ f.query dblT x y = .ok (.fin r) ∧
      |(r : ℚ) - rangeSum (added a us) x y| ≤
        ((1 + 1 / 2 ^ 53 : ℚ) ^ (a.length + us.length + digits a.length + 1) - 1) * (2 * mass a us) := by
  have hgr : ∀ N, (1 + 1 / 2 ^ 53 : ℚ) ^ N = growth N := fun N => rfl
  rw [hgr] at hmax
  rw [hgr]
  have hmass : ((mass a us : Nat) : ℚ) = ((((a.map fun x => (x.natAbs : Int)).sum + (us.map fun u => (u.2.natAbs : Int)).sum : Int)) : ℚ) := by
    rw [natAbs_sum_cast, natAbs_sum_cast']
    unfold mass
    push_cast
    rfl
  have hm0 : (0 : ℚ) ≤ (mass a us : ℚ) := Nat.cast_nonneg _
  have hless : ∀ N, N ≤ a.length + us.length + digits a.length → ∀ m : ℚ, 0 ≤ m → m ≤ mass a us → growth N * m ≤ maxDbl := by
    intro N hN m hm0 hm
    refine le_trans ?_ hmax
    have h1 := growth_one_le N
    have h2 := growth_mono hN
    have h3 := growth_one_le (a.length + us.length + digits a.length)
    calc growth N * m ≤ growth (a.length + us.length + digits a.length) * m := mul_le_mul_of_nonneg_right h2 hm0
      _ ≤ _ := mul_le_mul_of_nonneg_left (by linarith) (by linarith)
  have hus : 0 ≤ (us.map fun u => (u.2.natAbs : Int)).sum := by rw [natAbs_sum_cast']; omega
  have has : 0 ≤ (a.map fun x => (x.natAbs : Int)).sum := by rw [natAbs_sum_cast]; omega
  -- construction
  have hbuild : Tree.empty.build dblT (a.map Dbl.fin) a.length =
      ⟨buildLoop dblT (List.replicate (a.length + 1) (.fin 0)) 1 (a.map Dbl.fin), true⟩ := by
    unfold Tree.build Tree.empty
    simp only [List.length_map, Nat.lt_irrefl, if_false, List.length_nil, Nat.zero_lt_succ, if_true, Nat.add_sub_cancel]
    rw [List.take_of_length_le (by rw [List.length_map])]
    rfl
  have h0 := App.buildLoop a 0 (List.replicate (a.length + 1) (.fin 0)) [] [] rfl
    (by rw [List.nil_append]; exact App.init a.length hW)
    (by
      rw [Nat.zero_add, List.sum_nil, Int.zero_add]
      refine hless _ (by omega) _ (by exact_mod_cast has) ?_
      rw [hmass]
      exact_mod_cast (by omega : (a.map fun x => (x.natAbs : Int)).sum ≤ (a.map fun x => (x.natAbs : Int)).sum + (us.map fun u => (u.2.natAbs : Int)).sum))
  rw [List.nil_append, List.nil_append, List.length_nil, Nat.zero_add, Nat.zero_add] at h0
  -- updates
  obtain ⟨f, w, ef, hf, hA, hlen, hw⟩ := App.updates us (f := Tree.empty.build dblT (a.map Dbl.fin) a.length) (by rw [hbuild])
    (by rw [hbuild]; exact h0) (by
      refine hless _ (by omega) _ ?_ ?_
      · exact_mod_cast (by omega : 0 ≤ (a.map fun x => (x.natAbs : Int)).sum + (us.map fun u => (u.2.natAbs : Int)).sum)
      · rw [hmass])
  have hwm : (w.sum : ℚ) ≤ mass a us := by rw [hmass]; exact_mod_cast hw
  -- query
  have hl := hA.len
  have hWf := hA.lenW
  obtain ⟨d, ed, r, hr, he, _⟩ := hA.range (x := min (min x y) (added a us).length) (y := min (max x y) (added a us).length)
    (M := a.length + us.length + digits a.length) (by omega) (by omega) (by rw [hlen])
    (le_trans (mul_le_mul_of_nonneg_left (by linarith) (by have := growth_one_le (a.length + us.length + digits a.length); linarith)) hmax)
  refine ⟨f, r, ef, ?_, ?_⟩
  · unfold Tree.query
    simp only [hf, Bool.not_true, Bool.false_eq_true, if_false]
    rw [hl, length_last (by omega), ed, hr]
  · have es : rangeSum (added a us) x y =
        (slice (added a us) (min (min x y) (added a us).length - 1) (min (max x y) (added a us).length)).sum := by
      unfold rangeSum addressed positions slice
      rw [show max 1 (min (min x y) (added a us).length) - 1 = min (min x y) (added a us).length - 1 by omega]
    rw [es]
    refine he.trans (mul_le_mul_of_nonneg_left ?_ (by have := growth_one_le (a.length + us.length + digits a.length + 1); linarith))
    have h1 := slice_sum_le hA.pos 0 (min (max x y) (added a us).length)
    have h2 := slice_sum_le hA.pos 0 (min (min x y) (added a us).length - 1)
    have h3 : ((slice w 0 (min (max x y) (added a us).length)).sum + (slice w 0 (min (min x y) (added a us).length - 1)).sum : Int) ≤ 2 * w.sum := by omega
    have h4 : (((slice w 0 (min (max x y) (added a us).length)).sum + (slice w 0 (min (min x y) (added a us).length - 1)).sum : Int) : ℚ) ≤ 2 * (w.sum : ℚ) := by
      exact_mod_cast h3
    linarith

/-- The query that returns 0 instead of 1 (`C191_counterexample`) is within the bound: `2 (2^53 + 1) ((1 + 2^-53)^5 - 1)` is a bit more
than 10. -/
example : (Tree.empty.build dblT ([2 ^ 53, 1].map Dbl.fin) 2).query dblT 2 2 = .ok (.fin 0) ∧
    (10 : ℚ) < ((1 + 1 / 2 ^ 53 : ℚ) ^ 5 - 1) * (2 * mass [2 ^ 53, 1] []) ∧
    ((1 + 1 / 2 ^ 53 : ℚ) ^ 5 - 1) * (2 * mass [2 ^ 53, 1] []) < 11 := by
  refine ⟨by decide +kernel, ?_, ?_⟩ <;> norm_num [mass]

end Verif.Fenwick
