import Verif.Seqs.PropsMissing
import Mathlib.Tactic.NormNum

/-!
C167: the time of the searches of missing_element.h, which their comments (lines 20, 78 and 153) say to be O(log n).

The loops of Model.lean, together with the number of their iterations.  An iteration reads at most three elements and, in the
geometric searches, computes one power.
-/

namespace Verif.Seqs

/-- missing_element.h:46-71, with the number of iterations (`iteration`). -/
def arithLoopC (l : List Int) (factor lower : Int) : Nat → Nat → Nat × Res (Bool × Int)
  | 0, _ => (0, .exc .invalid)
  | it + 1, count =>
    let step := count / 2
    let expected := lower + step * factor
    if step = 0 then (1, .ok (false, lower))
    else match rd l step with
      | .ok vmid =>
        if expected = vmid then
          let r := arithLoopC l factor lower it (count + step)
          (r.1 + 1, r.2)
        else match rd l (step - 1) with
          | .ok vpit =>
            if vpit = expected - factor then (1, .ok (true, expected))
            else
              let r := arithLoopC l factor lower it (count - step)
              (r.1 + 1, r.2)
          | .exc e => (1, .exc e)
          | .ub => (1, .ub)
      | .exc e => (1, .exc e)
      | .ub => (1, .ub)

/-- missing_element.h:24-72: the number of iterations and the result. -/
def findArithC (l : List Int) (factor lower : Int) : Nat × Res (Bool × Int) :=
  match rd l 0 with
  | .ok v =>
    if v ≠ lower then (0, if v = lower + factor then .ok (true, lower) else .exc .invalid)
    else arithLoopC l factor lower l.length l.length
  | .exc e => (0, .exc e)
  | .ub => (0, .ub)

/-- missing_element.h:111-145, with the number of iterations. -/
def geomLoopC (l : List Int) (factor lower : Int) : Nat → Nat → Nat × Res (Bool × Int)
  | 0, count => (0, if count = 0 then .ok (false, lower) else .exc .invalid)
  | it + 1, count =>
    if count = 0 then (0, .ok (false, lower))
    else
      let step := count / 2
      if step = 0 ∨ step = l.length then (1, .ok (false, lower))
      else match rd l step, rd l (step + 1), rd l (step - 1) with
        | .ok vmid, .ok vnit, .ok vpit =>
          if vnit ≠ vmid * factor then (1, .ok (true, vmid * factor))
          else if vmid ≠ vpit * factor then (1, .ok (true, vpit * factor))
          else if vmid = lower * factor ^ step then
            let r := geomLoopC l factor lower it (count + step)
            (r.1 + 1, r.2)
          else
            let r := geomLoopC l factor lower it (count - step)
            (r.1 + 1, r.2)
        | _, _, _ => (1, .ub)

/-- missing_element.h:87-146. -/
def findGeomC (l : List Int) (factor lower : Int) : Nat × Res (Bool × Int) :=
  match rd l 0 with
  | .ok v =>
    if v ≠ lower then (0, if v = lower * factor then .ok (true, lower) else .exc .invalid)
    else geomLoopC l factor lower l.length l.length
  | .exc e => (0, .exc e)
  | .ub => (0, .ub)

/-- missing_element.h:187-221, with the number of iterations. -/
def geomFLoopC (l : List Rat) (factor lower err : Rat) : Nat → Nat → Nat × Res (Bool × Rat)
  | 0, count => (0, if count = 0 then .ok (false, lower) else .exc .invalid)
  | it + 1, count =>
    if count = 0 then (0, .ok (false, lower))
    else
      let step := count / 2
      if step = 0 ∨ step = l.length then (1, .ok (false, lower))
      else match rd l step, rd l (step + 1), rd l (step - 1) with
        | .ok vmid, .ok vnit, .ok vpit =>
          if vnit > vmid * factor + err ∨ vnit < vmid * factor - err then (1, .ok (true, vmid * factor))
          else if vmid > vpit * factor + err ∨ vmid < vpit * factor - err then (1, .ok (true, vpit * factor))
          else if vmid ≤ lower * factor ^ step + err ∨ vmid ≥ lower * factor ^ step - err then
            let r := geomFLoopC l factor lower err it (count + step)
            (r.1 + 1, r.2)
          else
            let r := geomFLoopC l factor lower err it (count - step)
            (r.1 + 1, r.2)
        | _, _, _ => (1, .ub)

/-- missing_element.h:161-222. -/
def findGeomFC (l : List Rat) (factor lower err : Rat) : Nat × Res (Bool × Rat) :=
  match rd l 0 with
  | .ok v =>
    if v ≠ lower then (0, if v = lower * factor then .ok (true, lower) else .exc .invalid)
    else geomFLoopC l factor lower err l.length l.length
  | .exc e => (0, .exc e)
  | .ub => (0, .ub)

/-! ### The results are those of Model.lean -/

theorem rd_cases {α} (l : List α) (i : Nat) : (∃ v, rd l i = .ok v ∧ i < l.length) ∨ (rd l i = .ub ∧ l.length ≤ i) := by
  by_cases h : i < l.length
  · left
    refine ⟨l[i], ?_, h⟩
    simp [rd, h]
  · right
    exact ⟨rd_ge (by omega), by omega⟩

theorem arithLoopC_same (l : List Int) (factor lower : Int) (it : Nat) : ∀ count,
    (arithLoopC l factor lower it count).2 = arithLoop l factor lower it count := by
  induction it with
  | zero => intro count; rfl
  | succ it ih =>
    intro count
    simp only [arithLoopC, arithLoop]
    by_cases h0 : count / 2 = 0
    · simp only [h0, if_true]
    simp only [h0, if_false]
    rcases rd_cases l (count / 2) with ⟨v, hv, hlt⟩ | ⟨hv, -⟩
    · rcases rd_cases l (count / 2 - 1) with ⟨w, hw, -⟩ | ⟨-, h2⟩
      · simp only [hv, hw, Res.bind_ok]
        by_cases h1 : lower + ((count / 2 : Nat) : Int) * factor = v
        · simp only [h1, if_true]; exact ih _
        · simp only [h1, if_false]
          by_cases h2 : w = lower + ((count / 2 : Nat) : Int) * factor - factor
          · simp only [h2, if_true]
          · simp only [h2, if_false]; exact ih _
      · omega
    · simp only [hv, Res.bind_ub]

theorem geomLoopC_same (l : List Int) (factor lower : Int) (it : Nat) : ∀ count,
    (geomLoopC l factor lower it count).2 = geomLoop l factor lower it count := by
  induction it with
  | zero => intro count; rfl
  | succ it ih =>
    intro count
    simp only [geomLoopC, geomLoop]
    by_cases hc : count = 0
    · simp only [hc, if_true]
    simp only [hc, if_false]
    by_cases h0 : count / 2 = 0 ∨ count / 2 = l.length
    · simp only [h0, if_true]
    simp only [h0, if_false]
    rcases rd_cases l (count / 2) with ⟨v, hv, hlt⟩ | ⟨hv, -⟩
    · rcases rd_cases l (count / 2 + 1) with ⟨u, hu, -⟩ | ⟨hu, -⟩
      · rcases rd_cases l (count / 2 - 1) with ⟨w, hw, -⟩ | ⟨-, h2⟩
        · simp only [hv, hu, hw, Res.bind_ok]
          by_cases h1 : u ≠ v * factor
          · simp only [h1, if_true, ne_eq, not_false_eq_true]
          · by_cases h2 : v ≠ w * factor
            · simp only [h1, h2, if_true, if_false, ne_eq, not_false_eq_true]
            · by_cases h3 : v = lower * factor ^ (count / 2)
              · simp only [h1, h2, if_false]
                rw [if_pos h3, if_pos h3]; exact ih _
              · simp only [h1, h2, if_false]
                rw [if_neg h3, if_neg h3]; exact ih _
        · omega
      · simp only [hv, hu, Res.bind_ok, Res.bind_ub]
    · simp only [hv, Res.bind_ub]

theorem geomFLoopC_same (l : List Rat) (factor lower err : Rat) (it : Nat) : ∀ count,
    (geomFLoopC l factor lower err it count).2 = geomFLoop l factor lower err it count := by
  induction it with
  | zero => intro count; rfl
  | succ it ih =>
    intro count
    simp only [geomFLoopC, geomFLoop]
    by_cases hc : count = 0
    · simp only [hc, if_true]
    simp only [hc, if_false]
    by_cases h0 : count / 2 = 0 ∨ count / 2 = l.length
    · simp only [h0, if_true]
    simp only [h0, if_false]
    rcases rd_cases l (count / 2) with ⟨v, hv, hlt⟩ | ⟨hv, -⟩
    · rcases rd_cases l (count / 2 + 1) with ⟨u, hu, -⟩ | ⟨hu, -⟩
      · rcases rd_cases l (count / 2 - 1) with ⟨w, hw, -⟩ | ⟨-, h2⟩
        · simp only [hv, hu, hw, Res.bind_ok]
          by_cases h1 : u > v * factor + err ∨ u < v * factor - err
          · rw [if_pos h1, if_pos h1]
          · rw [if_neg h1, if_neg h1]
            by_cases h2 : v > w * factor + err ∨ v < w * factor - err
            · rw [if_pos h2, if_pos h2]
            · rw [if_neg h2, if_neg h2]
              by_cases h3 : v ≤ lower * factor ^ (count / 2) + err ∨ v ≥ lower * factor ^ (count / 2) - err
              · rw [if_pos h3, if_pos h3]; exact ih _
              · rw [if_neg h3, if_neg h3]; exact ih _
        · omega
      · simp only [hv, hu, Res.bind_ok, Res.bind_ub]
    · simp only [hv, Res.bind_ub]

/-- The counting functions compute what the functions of Model.lean compute. -/
theorem C167_same : (∀ l factor lower, (findArithC l factor lower).2 = findArith l factor lower) ∧
    (∀ l factor lower, (findGeomC l factor lower).2 = findGeom l factor lower) ∧
    (∀ l factor lower err, (findGeomFC l factor lower err).2 = findGeomF l factor lower err) := by
  refine ⟨fun l factor lower => ?_, fun l factor lower => ?_, fun l factor lower err => ?_⟩
  · unfold findArithC findArith
    rcases rd_cases l 0 with ⟨v, hv, -⟩ | ⟨hv, -⟩
    · simp only [hv, Res.bind_ok]
      by_cases h : v ≠ lower
      · rw [if_pos h, if_pos h]
      · rw [if_neg h, if_neg h]; exact arithLoopC_same ..
    · simp only [hv, Res.bind_ub]
  · unfold findGeomC findGeom
    rcases rd_cases l 0 with ⟨v, hv, -⟩ | ⟨hv, -⟩
    · simp only [hv, Res.bind_ok]
      by_cases h : v ≠ lower
      · rw [if_pos h, if_pos h]
      · rw [if_neg h, if_neg h]; exact geomLoopC_same ..
    · simp only [hv, Res.bind_ub]
  · unfold findGeomFC findGeomF
    rcases rd_cases l 0 with ⟨v, hv, -⟩ | ⟨hv, -⟩
    · simp only [hv, Res.bind_ok]
      by_cases h : v ≠ lower
      · rw [if_pos h, if_pos h]
      · rw [if_neg h, if_neg h]; exact geomFLoopC_same ..
    · simp only [hv, Res.bind_ub]

/-! ### Bounds -/

theorem arithLoopC_le (l : List Int) (factor lower : Int) (it : Nat) : ∀ count, (arithLoopC l factor lower it count).1 ≤ it ∧
    ((arithLoopC l factor lower it count).2 = .exc .invalid → (arithLoopC l factor lower it count).1 = it) := by
  induction it with
  | zero => intro count; exact ⟨Nat.le_refl _, fun _ => rfl⟩
  | succ it ih =>
    intro count
    simp only [arithLoopC]
    by_cases h0 : count / 2 = 0
    · simp only [h0, if_true]; exact ⟨by omega, fun h => by cases h⟩
    simp only [h0, if_false]
    rcases rd_cases l (count / 2) with ⟨v, hv, hlt⟩ | ⟨hv, -⟩
    · rcases rd_cases l (count / 2 - 1) with ⟨w, hw, -⟩ | ⟨-, h2⟩
      · simp only [hv, hw]
        by_cases h1 : lower + ((count / 2 : Nat) : Int) * factor = v
        · simp only [h1, if_true]
          exact ⟨by have := (ih (count + count / 2)).1; omega, fun h => by rw [(ih (count + count / 2)).2 h]⟩
        · simp only [h1, if_false]
          by_cases h2 : w = lower + ((count / 2 : Nat) : Int) * factor - factor
          · simp only [h2, if_true]; exact ⟨by omega, fun h => by cases h⟩
          · simp only [h2, if_false]
            exact ⟨by have := (ih (count - count / 2)).1; omega, fun h => by rw [(ih (count - count / 2)).2 h]⟩
      · omega
    · simp only [hv]; exact ⟨by omega, fun h => by cases h⟩

theorem geomLoopC_le (l : List Int) (factor lower : Int) (it : Nat) : ∀ count, (geomLoopC l factor lower it count).1 ≤ it ∧
    ((geomLoopC l factor lower it count).2 = .exc .invalid → (geomLoopC l factor lower it count).1 = it) := by
  induction it with
  | zero => intro count; exact ⟨Nat.le_refl _, fun _ => rfl⟩
  | succ it ih =>
    intro count
    simp only [geomLoopC]
    by_cases hc : count = 0
    · simp only [hc, if_true]; exact ⟨by omega, fun h => by cases h⟩
    simp only [hc, if_false]
    by_cases h0 : count / 2 = 0 ∨ count / 2 = l.length
    · simp only [h0, if_true]; exact ⟨by omega, fun h => by cases h⟩
    simp only [h0, if_false]
    rcases rd_cases l (count / 2) with ⟨v, hv, hlt⟩ | ⟨hv, -⟩
    · rcases rd_cases l (count / 2 + 1) with ⟨u, hu, -⟩ | ⟨hu, -⟩
      · rcases rd_cases l (count / 2 - 1) with ⟨w, hw, -⟩ | ⟨-, h2⟩
        · simp only [hv, hu, hw]
          by_cases h1 : u ≠ v * factor
          · simp only [h1, if_true, ne_eq, not_false_eq_true]; exact ⟨by omega, fun h => by cases h⟩
          · by_cases h2 : v ≠ w * factor
            · simp only [h1, h2, if_true, if_false, ne_eq, not_false_eq_true]; exact ⟨by omega, fun h => by cases h⟩
            · simp only [h1, h2, if_false]
              by_cases h3 : v = lower * factor ^ (count / 2)
              · rw [if_pos h3]
                exact ⟨by have := (ih (count + count / 2)).1; simp only; omega, fun h => by simp only; rw [(ih (count + count / 2)).2 h]⟩
              · rw [if_neg h3]
                exact ⟨by have := (ih (count - count / 2)).1; simp only; omega, fun h => by simp only; rw [(ih (count - count / 2)).2 h]⟩
        · omega
      · simp only [hv, hu]; exact ⟨by omega, fun h => by cases h⟩
    · simp only [hv]; exact ⟨by omega, fun h => by cases h⟩

/-- The full statement: the number of iterations is at most logarithmic. -/
def C167_statement : Prop :=
  (∃ c, ∀ l factor lower, (findArithC l factor lower).1 ≤ c * (Nat.log2 l.length + 1)) ∧
  (∃ c, ∀ l factor lower, (findGeomC l factor lower).1 ≤ c * (Nat.log2 l.length + 1)) ∧
  (∃ c, ∀ l factor lower err, (findGeomFC l factor lower err).1 ≤ c * (Nat.log2 l.length + 1))

/-- The searches over integers never take more iterations than there are elements. A logarithmic bound does not hold for
them (`C167_not`). -/
theorem C167_linear_partial (l : List Int) (factor lower : Int) :
    (findArithC l factor lower).1 ≤ l.length ∧ (findGeomC l factor lower).1 ≤ l.length := by
  constructor
  · unfold findArithC
    rcases rd_cases l 0 with ⟨v, hv, -⟩ | ⟨hv, -⟩
    · simp only [hv]
      split
      · exact Nat.zero_le _
      · exact (arithLoopC_le ..).1
    · simp only [hv]; exact Nat.zero_le _
  · unfold findGeomC
    rcases rd_cases l 0 with ⟨v, hv, -⟩ | ⟨hv, -⟩
    · simp only [hv]
      split
      · exact Nat.zero_le _
      · exact (geomLoopC_le ..).1
    · simp only [hv]; exact Nat.zero_le _

theorem geomFLoopC_step (l : List Rat) (factor lower err : Rat) (it count : Nat) :
    (geomFLoopC l factor lower err it count).1 ≤ 1 ∨
    ∃ it', it = it' + 1 ∧ count / 2 + 1 < l.length ∧ 0 < count / 2 ∧
      (geomFLoopC l factor lower err it count).1 = (geomFLoopC l factor lower err it' (count + count / 2)).1 + 1 := by
  cases it with
  | zero => left; exact Nat.zero_le _
  | succ it =>
    simp only [geomFLoopC]
    by_cases hc : count = 0
    · left; simp only [hc, if_true]; omega
    simp only [hc, if_false]
    by_cases h0 : count / 2 = 0 ∨ count / 2 = l.length
    · left; simp only [h0, if_true]; omega
    simp only [h0, if_false]
    rcases rd_cases l (count / 2) with ⟨v, hv, hlt⟩ | ⟨hv, -⟩
    · rcases rd_cases l (count / 2 + 1) with ⟨u, hu, hlt2⟩ | ⟨hu, -⟩
      · rcases rd_cases l (count / 2 - 1) with ⟨w, hw, -⟩ | ⟨-, h2⟩
        · simp only [hv, hu, hw]
          by_cases h1 : u > v * factor + err ∨ u < v * factor - err
          · left; rw [if_pos h1]
          · rw [if_neg h1]
            by_cases h2 : v > w * factor + err ∨ v < w * factor - err
            · left; rw [if_pos h2]
            · rw [if_neg h2]
              right
              refine ⟨it, rfl, hlt2, by omega, ?_⟩
              rw [if_pos]
              -- a negative tolerance would have ended the search
              have he : 0 ≤ err := by
                by_contra he
                rw [not_le] at he
                apply h1
                rcases le_total u (v * factor) with h | h
                · right; linarith
                · left; linarith
              rcases le_total v (lower * factor ^ (count / 2)) with h | h
              · left; linarith
              · right; linarith
        · omega
      · left; simp only [hv, hu]; omega
    · left; simp only [hv]; omega

/-- The search over floating point numbers takes three iterations at most: it always turns right, and leaves the sequence. -/
theorem C167_floating (l : List Rat) (factor lower err : Rat) : (findGeomFC l factor lower err).1 ≤ 3 := by
  unfold findGeomFC
  rcases rd_cases l 0 with ⟨v, hv, -⟩ | ⟨hv, -⟩
  · simp only [hv]
    split
    · exact Nat.zero_le _
    · rcases geomFLoopC_step l factor lower err l.length l.length with h | ⟨i1, -, a1, b1, e1⟩
      · omega
      rcases geomFLoopC_step l factor lower err i1 (l.length + l.length / 2) with h | ⟨i2, -, a2, b2, e2⟩
      · omega
      rcases geomFLoopC_step l factor lower err i2 (l.length + l.length / 2 + (l.length + l.length / 2) / 2) with h | ⟨i3, -, a3, b3, e3⟩
      · omega
      · omega
  · simp only [hv]; exact Nat.zero_le _

/-! ### Linear time -/

/-- The positions 11 of a long sequence: the arithmetic search goes round in circles. -/
theorem hunt_circle (n : Nat) (hn : 32 ≤ n) (it : Nat) : ∀ c ∈ [16, 24, 12, 18, 27, 14, 21, 31], hunt n 11 it c = .exc .invalid := by
  induction it with
  | zero => intro c _; rfl
  | succ it ih =>
    intro c hc
    simp only [List.mem_cons, List.not_mem_nil, or_false] at hc
    simp only [List.forall_mem_cons, List.not_mem_nil, false_implies, implies_true, and_true] at ih
    obtain ⟨i1, i2, i3, i4, i5, i6, i7, i8⟩ := ih
    rcases hc with rfl | rfl | rfl | rfl | rfl | rfl | rfl | rfl <;> simp only [hunt] <;> norm_num <;> rw [if_neg (by omega)] <;> assumption

theorem hunt_down (n : Nat) (hn : 32 ≤ n) (it : Nat) : ∀ j, 4 ≤ j → 2 ^ j ≤ n → hunt n 11 it (2 ^ j) = .exc .invalid := by
  induction it with
  | zero => intro j _ _; rfl
  | succ it ih =>
    intro j hj hle
    by_cases h4 : j = 4
    · subst h4; exact hunt_circle n hn (it + 1) _ (by simp)
    · obtain ⟨i, rfl⟩ : ∃ i, j = i + 1 := ⟨j - 1, by omega⟩
      have h16 : 2 ^ 4 ≤ 2 ^ i := Nat.pow_le_pow_right (by omega) (by omega)
      have h2 : 2 ^ (i + 1) / 2 = 2 ^ i := by rw [Nat.pow_succ]; omega
      have h3 : 2 ^ (i + 1) - 2 ^ i = 2 ^ i := by rw [Nat.pow_succ]; omega
      have h5 : 2 ^ (i + 1) = 2 ^ i * 2 := Nat.pow_succ ..
      simp only [hunt, h2, h3]
      rw [if_neg (by omega), if_neg (by omega), if_neg (by omega), if_neg (by omega)]
      exact ih i (by omega) (by omega)

/-- The arithmetic search for the twelfth element, in a sequence of any power of two from 32 on, takes as many iterations as there
are elements, and then reports an invalid sequence. -/
theorem C167_counterexample_arithmetic (j : Nat) (hj : 5 ≤ j) (lower factor : Int) (hf : factor ≠ 0) :
    findArithC (arithGap lower factor (2 ^ j) 11) factor lower = (2 ^ j, .exc .invalid) := by
  have h32 : 2 ^ 5 ≤ 2 ^ j := Nat.pow_le_pow_right (by omega) hj
  have hres : findArith (arithGap lower factor (2 ^ j) 11) factor lower = .exc .invalid := by
    rw [findArith_hunt hf (by omega) (by omega) (by omega), hunt_down _ (by omega) _ j (by omega) (Nat.le_refl _)]; rfl
  have hsame := (C167_same.1 (arithGap lower factor (2 ^ j) 11) factor lower).trans hres
  have hlen : (arithGap lower factor (2 ^ j) 11).length = 2 ^ j := gap_length _ (by omega)
  unfold findArithC at hsame ⊢
  rw [rd_gap _ (by omega)] at hsame ⊢
  have hfirst : ¬ (lower + ((if 0 < 11 then 0 else 0 + 1 : Nat) : Int) * factor ≠ lower) := by simp
  simp only [hfirst, if_false] at hsame ⊢
  have hle := (arithLoopC_le (arithGap lower factor (2 ^ j) 11) factor lower _ _).2 hsame
  exact Prod.ext (hle.trans hlen) hsame

theorem ghunt_circle (n : Nat) (hn : 128 ≤ n) (it : Nat) :
    ∀ c ∈ [64, 96, 48, 72, 108, 54, 81, 121, 61, 91, 136, 68, 102, 51, 76, 114, 57, 85, 127], ghunt n 47 it c = .exc .invalid := by
  induction it with
  | zero =>
    intro c hc
    simp only [ghunt]
    rw [if_neg]
    rintro rfl
    simp at hc
  | succ it ih =>
    intro c hc
    simp only [List.mem_cons, List.not_mem_nil, or_false] at hc
    simp only [List.forall_mem_cons, List.not_mem_nil, false_implies, implies_true, and_true] at ih
    obtain ⟨i1, i2, i3, i4, i5, i6, i7, i8, i9, i10, i11, i12, i13, i14, i15, i16, i17, i18, i19⟩ := ih
    rcases hc with rfl | rfl | rfl | rfl | rfl | rfl | rfl | rfl | rfl | rfl | rfl | rfl | rfl | rfl | rfl | rfl | rfl | rfl | rfl <;>
      simp only [ghunt] <;> norm_num <;> rw [if_neg (by omega), if_neg (by omega)] <;> assumption

theorem ghunt_down (n : Nat) (hn : 128 ≤ n) (it : Nat) : ∀ j, 6 ≤ j → 2 ^ j ≤ n → ghunt n 47 it (2 ^ j) = .exc .invalid := by
  induction it with
  | zero =>
    intro j _ _
    simp only [ghunt]
    rw [if_neg (by positivity)]
  | succ it ih =>
    intro j hj hle
    by_cases h4 : j = 6
    · subst h4; exact ghunt_circle n hn (it + 1) _ (by simp)
    · obtain ⟨i, rfl⟩ : ∃ i, j = i + 1 := ⟨j - 1, by omega⟩
      have h16 : 2 ^ 6 ≤ 2 ^ i := Nat.pow_le_pow_right (by omega) (by omega)
      have h2 : 2 ^ (i + 1) / 2 = 2 ^ i := by rw [Nat.pow_succ]; omega
      have h3 : 2 ^ (i + 1) - 2 ^ i = 2 ^ i := by rw [Nat.pow_succ]; omega
      have h5 : 2 ^ (i + 1) = 2 ^ i * 2 := Nat.pow_succ ..
      simp only [ghunt, h2, h3]
      rw [if_neg (by omega), if_neg (by omega), if_neg (by omega), if_neg (by omega), if_neg (by omega)]
      exact ih i (by omega) (by omega)

/-- The same for the geometric search over integers and the 48th element, from 128 elements on. -/
theorem C167_counterexample_geometric (j : Nat) (hj : 7 ≤ j) (lower factor : Int) (hl : lower ≠ 0) (hf : factor ≠ 0) (h1 : factor ≠ 1) :
    findGeomC (geomGap lower factor (2 ^ j) 47) factor lower = (2 ^ j, .exc .invalid) := by
  have h32 : 2 ^ 7 ≤ 2 ^ j := Nat.pow_le_pow_right (by omega) hj
  have hres : findGeom (geomGap lower factor (2 ^ j) 47) factor lower = .exc .invalid := by
    rw [findGeom_ghunt hf h1 hl (by omega) (by omega) (by omega), ghunt_down _ (by omega) _ j (by omega) (Nat.le_refl _)]; rfl
  have hsame := (C167_same.2.1 (geomGap lower factor (2 ^ j) 47) factor lower).trans hres
  have hlen : (geomGap lower factor (2 ^ j) 47).length = 2 ^ j := gap_length _ (by omega)
  unfold findGeomC at hsame ⊢
  rw [rd_gap _ (by omega)] at hsame ⊢
  have hfirst : ¬ (lower * factor ^ (if 0 < 47 then 0 else 0 + 1 : Nat) ≠ lower) := by simp
  simp only [hfirst, if_false] at hsame ⊢
  have hle := (geomLoopC_le (geomGap lower factor (2 ^ j) 47) factor lower _ _).2 hsame
  exact Prod.ext (hle.trans hlen) hsame

/-- `c * (j + 1) < 2 ^ j` for large `j`. -/
theorem exists_pow_gt (c b : Nat) : ∃ j, b ≤ j ∧ c * (j + 1) < 2 ^ j := by
  have h1 : 2 * c + b < 2 ^ (2 * c + b) := Nat.lt_two_pow_self
  refine ⟨(2 * c + b) * 2, by omega, ?_⟩
  rw [Nat.pow_mul]
  generalize 2 ^ (2 * c + b) = p at h1
  nlinarith [Nat.zero_le (c * b), Nat.zero_le c, Nat.zero_le b]

/-- The full statement is false, for both searches over integers. -/
theorem C167_not : (¬ ∃ c, ∀ l factor lower, (findArithC l factor lower).1 ≤ c * (Nat.log2 l.length + 1)) ∧
    (¬ ∃ c, ∀ l factor lower, (findGeomC l factor lower).1 ≤ c * (Nat.log2 l.length + 1)) ∧ ¬ C167_statement := by
  have h1 : ¬ ∃ c, ∀ l factor lower, (findArithC l factor lower).1 ≤ c * (Nat.log2 l.length + 1) := by
    rintro ⟨c, h⟩
    obtain ⟨j, hj, hlt⟩ := exists_pow_gt c 5
    have h32 : 2 ^ 5 ≤ 2 ^ j := Nat.pow_le_pow_right (by omega) hj
    have h2 := h (arithGap 0 1 (2 ^ j) 11) 1 0
    rw [C167_counterexample_arithmetic j hj 0 1 (by decide)] at h2
    have hlen : (arithGap 0 1 (2 ^ j) 11).length = 2 ^ j := gap_length _ (by omega)
    rw [hlen, Nat.log2_two_pow] at h2
    simp only at h2
    omega
  refine ⟨h1, ?_, fun h => h1 h.1⟩
  rintro ⟨c, h⟩
  obtain ⟨j, hj, hlt⟩ := exists_pow_gt c 7
  have h32 : 2 ^ 7 ≤ 2 ^ j := Nat.pow_le_pow_right (by omega) hj
  have h2 := h (geomGap 1 2 (2 ^ j) 47) 2 1
  rw [C167_counterexample_geometric j hj 1 2 (by decide) (by decide) (by decide)] at h2
  have hlen : (geomGap 1 2 (2 ^ j) 47).length = 2 ^ j := gap_length _ (by omega)
  rw [hlen, Nat.log2_two_pow] at h2
  simp only at h2
  omega

example : findArithC (arithGap 1 1 16 7) 1 1 = (9, .ok (true, 8)) := by decide +kernel
example : findArithC (arithGap 1 1 32 11) 1 1 = (32, .exc .invalid) := by decide +kernel
example : findGeomC (geomGap 1 2 16 5) 2 1 = (2, .ok (true, 32)) := by decide +kernel

end Verif.Seqs
