import Verif.Fenwick.Model
import Mathlib.Data.List.Basic

/-!
C169: the cost of the calls of `fenwick_tree_t` (fenwick_tree.h:236-321), in cells of the array that are read or written.

The loops of Model.lean together with the number of cells they visit.  `_update` is recursive, so that the number of cells is also
the depth of its recursion.
-/

namespace Verif.Fenwick

/-- fenwick_tree.h:264-271 `_update`: the number of cells updated, and the array. -/
def updateCellsC {T} (t : Transform T) (cells : List T) (position : Nat) (value : T) : Nat × List T :=
  if h : 0 < position ∧ position < cells.length ∧ position < W then
    let r := updateCellsC t (cells.set position (t.op (cells[position]'h.2.1) value)) (nextUpdate position) value
    (r.1 + 1, r.2)
  else (0, cells)
termination_by if position = 0 then 0 else cells.length - position
decreasing_by
  have := nextUpdate_cases position h.1 h.2.2
  simp only [List.length_set]
  split <;> split <;> omega

/-- fenwick_tree.h:284-286: the number of cells read by the loop, and its result. -/
def queryLoopC {T} (t : Transform T) (cells : List T) (index : Nat) (value : T) : Nat × Res T :=
  let next := nextQuery index
  if h : 0 < next ∧ next < index then
    match rd cells next with
    | .ok c =>
      let r := queryLoopC t cells next (t.op c value)
      (r.1 + 1, r.2)
    | .exc e => (1, .exc e)
    | .ub => (1, .ub)
  else (0, .ok value)
termination_by index
decreasing_by exact h.2

/-- fenwick_tree.h:279-288 `_range_query(position)`. -/
def prefixQueryC {T} (t : Transform T) (cells : List T) (position : Nat) : Nat × Res T :=
  match rd cells position with
  | .ok v =>
    let r := queryLoopC t cells position v
    (r.1 + 1, r.2)
  | .exc e => (1, .exc e)
  | .ub => (1, .ub)

/-- fenwick_tree.h:298-321 `_range_query(start, end)`. -/
def rangeQueryC {T} (t : Transform T) (cells : List T) (start stop : Nat) : Nat × Res T :=
  let d := if start ≤ 1 then (0, .ok t.zero) else prefixQueryC t cells (start - 1)
  match d.2 with
  | .ok discarded =>
    let v := prefixQueryC t cells stop
    match v.2 with
    | .ok value => (d.1 + v.1, if t.truthy discarded then t.rev value discarded else .ok value)
    | .exc e => (d.1 + v.1, .exc e)
    | .ub => (d.1 + v.1, .ub)
  | .exc e => (d.1, .exc e)
  | .ub => (d.1, .ub)

/-- fenwick_tree.h:251-253, the loop of `_build`. -/
def buildLoopC {T} (t : Transform T) (cells : List T) (ii : Nat) : List T → Nat × List T
  | [] => (0, cells)
  | x :: rest =>
    let u := updateCellsC t cells ii x
    let r := buildLoopC t u.2 (ii + 1) rest
    (u.1 + r.1, r.2)

/-- fenwick_tree.h:236-256 `_build`: the number of cells updated, after the array was filled. -/
def Tree.buildC {T} (t : Transform T) (f : Tree T) (input : List T) (numberOfElements : Nat) : Nat × Tree T :=
  let size := if numberOfElements < input.length then numberOfElements + 1 else input.length + 1
  let cells :=
    if f.processed.length < size then List.replicate size t.null
    else if f.built then List.replicate size t.null
    else f.processed
  let r := buildLoopC t cells 1 (input.take (size - 1))
  (r.1, ⟨r.2, true⟩)

/-- fenwick_tree.h:89-99 `update`. -/
def Tree.updateC {T} (t : Transform T) (f : Tree T) (position : Nat) (value : T) : Nat × Res (Tree T × Bool) :=
  if !f.built then (0, .exc .notBuilt)
  else
    let ok := decide (position < f.processed.length)
    if ok && t.truthy value then
      let r := updateCellsC t f.processed position value
      (r.1, .ok ({ f with processed := r.2 }, ok))
    else (0, .ok (f, ok))

/-- fenwick_tree.h:166-172 `query`. -/
def Tree.queryC {T} (t : Transform T) (f : Tree T) (start stop : Nat) : Nat × Res T :=
  if !f.built then (0, .exc .notBuilt)
  else
    let last := (f.processed.length + (W - 1)) % W
    rangeQueryC t f.processed (min (min start stop) last) (min (max start stop) last)

/-- fenwick_tree.h:183-196 `set_value`. -/
def Tree.setValueC {T} (t : Transform T) (f : Tree T) (position : Nat) (value : T) : Nat × Res (Tree T × Bool) :=
  if !f.built then (0, .exc .notBuilt)
  else
    let ok := decide (position < f.processed.length) && decide (0 < position)
    if ok then
      let q := rangeQueryC t f.processed position position
      match q.2 with
      | .ok cur =>
        match t.rev value cur with
        | .ok diff =>
          if t.truthy diff then
            let r := updateCellsC t f.processed position diff
            (q.1 + r.1, .ok ({ f with processed := r.2 }, ok))
          else (q.1, .ok (f, ok))
        | .exc e => (q.1, .exc e)
        | .ub => (q.1, .ub)
      | .exc e => (q.1, .exc e)
      | .ub => (q.1, .ub)
    else (0, .ok (f, ok))

/-! ### The results are those of Model.lean -/

variable {T : Type} (t : Transform T)

theorem updateCellsC_same (cells : List T) (p : Nat) (v : T) : (updateCellsC t cells p v).2 = updateCells t cells p v := by
  fun_induction updateCellsC t cells p v with
  | case1 cells p h r ih => rw [updateCells, dif_pos h]; exact ih
  | case2 cells p h => rw [updateCells, dif_neg h]

theorem queryLoopC_same (cells : List T) (i : Nat) (v : T) : (queryLoopC t cells i v).2 = queryLoop t cells i v := by
  induction i using Nat.strongRecOn generalizing v with
  | _ i ih =>
    rw [queryLoopC, queryLoop]
    by_cases h : 0 < nextQuery i ∧ nextQuery i < i
    · simp only [dif_pos h]
      cases rd cells (nextQuery i) with
      | ok c => simp only [Res.bind_ok]; exact ih _ h.2 _
      | exc e => rfl
      | ub => rfl
    · simp only [dif_neg h]

theorem prefixQueryC_same (cells : List T) (p : Nat) : (prefixQueryC t cells p).2 = prefixQuery t cells p := by
  unfold prefixQueryC prefixQuery
  cases rd cells p with
  | ok c => simp only [Res.bind_ok]; exact queryLoopC_same ..
  | exc e => rfl
  | ub => rfl

theorem rangeQueryC_same (cells : List T) (p q : Nat) : (rangeQueryC t cells p q).2 = rangeQuery t cells p q := by
  unfold rangeQueryC rangeQuery
  by_cases h : p ≤ 1
  · simp only [if_pos h, Res.bind_ok, prefixQueryC_same]
    cases prefixQuery t cells q <;> rfl
  · simp only [if_neg h, prefixQueryC_same]
    cases prefixQuery t cells (p - 1) with
    | exc e => rfl
    | ub => rfl
    | ok d =>
      simp only [Res.bind_ok]
      cases prefixQuery t cells q <;> rfl

theorem buildLoopC_same (input : List T) : ∀ (cells : List T) ii, (buildLoopC t cells ii input).2 = buildLoop t cells ii input := by
  induction input with
  | nil => intro cells ii; rfl
  | cons x rest ih => intro cells ii; simp only [buildLoopC, buildLoop, ih, updateCellsC_same]

/-- The counting functions compute what the functions of Model.lean compute. -/
theorem C169_same (f : Tree T) :
    (∀ input n, (f.buildC t input n).2 = f.build t input n) ∧
    (∀ p v, (f.updateC t p v).2 = f.update t p v) ∧
    (∀ p q, (f.queryC t p q).2 = f.query t p q) ∧
    (∀ p v, (f.setValueC t p v).2 = f.setValue t p v) := by
  refine ⟨fun input n => ?_, fun p v => ?_, fun p q => ?_, fun p v => ?_⟩
  · simp only [Tree.buildC, Tree.build, buildLoopC_same]
  · unfold Tree.updateC Tree.update
    cases f.built with
    | false => rfl
    | true =>
      simp only [Bool.not_true, Bool.false_eq_true, if_false]
      split
      · simp only [updateCellsC_same]
      · rfl
  · unfold Tree.queryC Tree.query
    cases f.built with
    | false => rfl
    | true => simp only [Bool.not_true, Bool.false_eq_true, if_false]; exact rangeQueryC_same ..
  · unfold Tree.setValueC Tree.setValue
    cases f.built with
    | false => rfl
    | true =>
      simp only [Bool.not_true, Bool.false_eq_true, if_false]
      split
      · simp only [rangeQueryC_same]
        cases rangeQuery t f.processed p p with
        | exc e => rfl
        | ub => rfl
        | ok cur =>
          simp only [Res.bind_ok]
          cases t.rev v cur with
          | exc e => rfl
          | ub => rfl
          | ok diff =>
            simp only [Res.bind_ok]
            split
            · simp only [updateCellsC_same]
            · rfl
      · rfl

/-! ### Bounds -/

/-- The number of ones in the binary digits. -/
def ones (n : Nat) : Nat := if n = 0 then 0 else n % 2 + ones (n / 2)
termination_by n

/-- The number of binary digits. -/
def digits (n : Nat) : Nat := if n = 0 then 0 else 1 + digits (n / 2)
termination_by n

theorem ones_even (m : Nat) : ones (2 * m) = ones m := by
  by_cases h : m = 0
  · subst h; rfl
  · rw [ones, if_neg (by omega)]
    have h1 : 2 * m % 2 = 0 := by omega
    have h2 : 2 * m / 2 = m := by omega
    rw [h1, h2, Nat.zero_add]

theorem ones_odd (m : Nat) : ones (2 * m + 1) = ones m + 1 := by
  rw [ones, if_neg (by omega)]
  have h1 : (2 * m + 1) % 2 = 1 := by omega
  have h2 : (2 * m + 1) / 2 = m := by omega
  rw [h1, h2, Nat.add_comm]

theorem digits_double {m : Nat} (h : 0 < m) : digits (2 * m) = digits m + 1 ∧ digits (2 * m + 1) = digits m + 1 := by
  constructor
  · rw [digits, if_neg (by omega), show 2 * m / 2 = m by omega, Nat.add_comm]
  · rw [digits, if_neg (by omega), show (2 * m + 1) / 2 = m by omega, Nat.add_comm]

theorem ones_le_digits (n : Nat) : ones n ≤ digits n := by
  induction n using Nat.strongRecOn with
  | _ n ih =>
    by_cases h : n = 0
    · subst h; rw [ones, digits]; simp
    · rw [ones, digits, if_neg h, if_neg h]
      have := ih (n / 2) (by omega)
      omega

theorem digits_eq {n : Nat} (h : 0 < n) : digits n = Nat.log2 n + 1 := by
  induction n using Nat.strongRecOn with
  | _ n ih =>
    rw [digits, if_neg (by omega), Nat.log2_def]
    by_cases h2 : 2 ≤ n
    · rw [if_pos h2, ih (n / 2) (by omega) (by omega)]; omega
    · have : n / 2 = 0 := by omega
      rw [if_neg h2, this, digits, if_pos rfl]

theorem digits_mono {a b : Nat} (h : a ≤ b) : digits a ≤ digits b := by
  induction b using Nat.strongRecOn generalizing a with
  | _ b ih =>
    rw [digits]
    split
    · exact Nat.zero_le _
    · rw [digits.eq_def b, if_neg (by omega)]
      have := ih (b / 2) (by omega) (a := a / 2) (by omega)
      omega

/-- Removing the lowest one. -/
theorem ones_sub_low (n : Nat) (h : 0 < n) : ones (n - low n) + 1 = ones n := by
  induction n using Nat.strongRecOn with
  | _ n ih =>
    rcases parity n with ⟨k, hk⟩ | ⟨k, hk⟩
    · subst hk
      rw [low_even, ← Nat.mul_sub, ones_even, ones_even]
      exact ih k (by omega) (by omega)
    · subst hk
      rw [low_odd, show 2 * k + 1 - 1 = 2 * k by omega, ones_even, ones_odd]

/-- `next_update` at least doubles the lowest one. -/
theorem low_double (p : Nat) (h : 0 < p) : 2 * low p ≤ low (p + low p) := by
  induction p using Nat.strongRecOn with
  | _ p ih =>
    rcases parity p with ⟨k, hk⟩ | ⟨k, hk⟩
    · subst hk
      rw [low_even, ← Nat.mul_add, low_even]
      have := ih k (by omega) (by omega)
      omega
    · subst hk
      rw [low_odd, show 2 * k + 1 + 1 = 2 * (k + 1) by omega, low_even]
      have := low_pos (k + 1) (by omega)
      omega

theorem low_pow (i : Nat) : low (2 ^ i) = 2 ^ i := by
  induction i with
  | zero => exact low_odd 0
  | succ i ih => rw [Nat.pow_succ, Nat.mul_comm, low_even, ih]

theorem updateCellsC_le (cells : List T) (p : Nat) (v : T) (k : Nat) (hp : 0 < p) (hk : 2 ^ k ≤ low p) :
    (updateCellsC t cells p v).1 + k ≤ max k (digits (cells.length - 1)) := by
  fun_induction updateCellsC t cells p v generalizing k with
  | case1 cells p h r ih =>
    have hlow := low_le p
    have hpow : 2 ^ k ≤ cells.length - 1 := by omega
    have hdig : k + 1 ≤ digits (cells.length - 1) := by
      have h1 : 0 < 2 ^ k := Nat.two_pow_pos k
      rw [digits_eq (by omega)]
      have := (Nat.le_log2 (by omega)).2 hpow
      omega
    rcases nextUpdate_cases p h.1 h.2.2 with ⟨h1, h2⟩ | ⟨h1, h2⟩
    · have h3 := low_double p h.1
      rw [← h1] at h3
      have h4 := ih (k + 1) (by omega) (by rw [Nat.pow_succ]; omega)
      rw [List.length_set] at h4
      show r.1 + 1 + k ≤ _
      have h5 : r.1 + (k + 1) ≤ max (k + 1) (digits (cells.length - 1)) := h4
      omega
    · have h3 : r.1 = 0 := by
        show (updateCellsC t _ (nextUpdate p) v).1 = 0
        rw [h1, updateCellsC, dif_neg (by omega)]
      show r.1 + 1 + k ≤ _
      omega
  | case2 cells p h => omega

/-- `_update` visits no more cells than the greatest index has binary digits. -/
theorem C169_update (cells : List T) (p : Nat) (v : T) : (updateCellsC t cells p v).1 ≤ digits (cells.length - 1) := by
  by_cases hp : 0 < p
  · have := updateCellsC_le t cells p v 0 hp (low_pos p hp)
    omega
  · rw [updateCellsC, dif_neg (by omega)]; exact Nat.zero_le _

theorem queryLoopC_eq (cells : List T) (i : Nat) (v : T) (h0 : 0 < i) (hi : i < cells.length) (hW : i < W) :
    (queryLoopC t cells i v).1 + 1 = ones i := by
  induction i using Nat.strongRecOn generalizing v with
  | _ i ih =>
    have hn : nextQuery i = i - low i := by unfold nextQuery; rw [lsb_eq_low i hW]
    have h1 := ones_sub_low i h0
    have h2 := low_pos i h0
    rw [queryLoopC]
    by_cases h : 0 < nextQuery i ∧ nextQuery i < i
    · simp only [dif_pos h]
      have hr : rd cells (nextQuery i) = .ok (cells[nextQuery i]'(by omega)) := by
        unfold rd; rw [List.getElem?_eq_getElem (by omega)]
      rw [hr]
      simp only
      rw [ih _ h.2 _ h.1 (by omega) (by omega), hn]
      exact h1
    · simp only [dif_neg h]
      have : i - low i = 0 := by omega
      rw [this] at h1
      rw [← h1, ones, if_pos rfl]

/-- A prefix query reads exactly as many cells as its position has ones. -/
theorem C169_prefix (cells : List T) (p : Nat) (h0 : 0 < p) (hp : p < cells.length) (hW : p < W) :
    (prefixQueryC t cells p).1 = ones p := by
  unfold prefixQueryC
  have hr : rd cells p = .ok cells[p] := by unfold rd; rw [List.getElem?_eq_getElem hp]
  rw [hr]
  exact queryLoopC_eq t cells p _ h0 hp hW

theorem prefixQueryC_le (cells : List T) (p : Nat) (hW : cells.length ≤ W) :
    (prefixQueryC t cells p).1 ≤ max 1 (digits (cells.length - 1)) := by
  by_cases hp : p < cells.length
  · by_cases h0 : 0 < p
    · rw [C169_prefix t cells p h0 hp (by omega)]
      have h1 := ones_le_digits p
      have h2 := digits_mono (a := p) (b := cells.length - 1) (by omega)
      omega
    · have : p = 0 := by omega
      subst this
      unfold prefixQueryC
      have hr : rd cells 0 = .ok cells[0] := by unfold rd; rw [List.getElem?_eq_getElem hp]
      rw [hr]
      simp only
      have : nextQuery 0 = 0 := rfl
      rw [queryLoopC, dif_neg (by omega)]
      omega
  · unfold prefixQueryC
    have hr : rd cells p = .ub := by unfold rd; rw [List.getElem?_eq_none (by omega)]
    rw [hr]
    simp only
    omega

theorem rangeQueryC_le (cells : List T) (p q : Nat) (hW : cells.length ≤ W) :
    (rangeQueryC t cells p q).1 ≤ 2 * max 1 (digits (cells.length - 1)) := by
  have h1 : (if p ≤ 1 then ((0, .ok t.zero) : Nat × Res T) else prefixQueryC t cells (p - 1)).1 ≤ max 1 (digits (cells.length - 1)) := by
    by_cases h : p ≤ 1
    · rw [if_pos h]; exact Nat.zero_le _
    · rw [if_neg h]; exact prefixQueryC_le t cells _ hW
  have h2 := prefixQueryC_le t cells q hW
  unfold rangeQueryC
  generalize (if p ≤ 1 then ((0, .ok t.zero) : Nat × Res T) else prefixQueryC t cells (p - 1)) = d at h1
  generalize prefixQueryC t cells q = e at h2
  obtain ⟨m, d⟩ := d
  obtain ⟨n, e⟩ := e
  simp only at h1 h2 ⊢
  cases d with
  | ok d => cases e <;> (simp only; omega)
  | exc e => simp only; omega
  | ub => simp only; omega

theorem updateCellsC_length (cells : List T) (p : Nat) (v : T) : (updateCellsC t cells p v).2.length = cells.length := by
  fun_induction updateCellsC t cells p v with
  | case1 cells p h r ih => rw [List.length_set] at ih; exact ih
  | case2 cells p h => rfl

theorem buildLoopC_le (input : List T) : ∀ (cells : List T) ii,
    (buildLoopC t cells ii input).1 ≤ input.length * digits (cells.length - 1) := by
  induction input with
  | nil => intro cells ii; exact Nat.zero_le _
  | cons x rest ih =>
    intro cells ii
    have h1 := ih (updateCellsC t cells ii x).2 (ii + 1)
    have h2 := C169_update t cells ii x
    rw [updateCellsC_length] at h1
    simp only [buildLoopC, List.length_cons]
    rw [Nat.add_mul, Nat.one_mul]
    omega

/-- C169: on an array of `n + 1 ≤ 2^64` cells, `update` visits no more cells than `n` has binary digits (`log2 n + 1`, and none if `n`
is 0), `query` no more than two each, and `set_value` three. -/
theorem C169_calls (f : Tree T) (hW : f.processed.length ≤ W) :
    (∀ p v, (f.updateC t p v).1 ≤ digits (f.processed.length - 1)) ∧
    (∀ p q, (f.queryC t p q).1 ≤ 2 * max 1 (digits (f.processed.length - 1))) ∧
    (∀ p v, (f.setValueC t p v).1 ≤ 3 * digits (f.processed.length - 1)) := by
  refine ⟨fun p v => ?_, fun p q => ?_, fun p v => ?_⟩
  · unfold Tree.updateC
    split
    · exact Nat.zero_le _
    · simp only
      split
      · exact C169_update ..
      · exact Nat.zero_le _
  · unfold Tree.queryC
    split
    · exact Nat.zero_le _
    · exact rangeQueryC_le t _ _ _ hW
  · unfold Tree.setValueC
    split
    · exact Nat.zero_le _
    · simp only
      split
      · rename_i hok
        simp only [Bool.and_eq_true, decide_eq_true_eq] at hok
        have h0 : 1 ≤ digits (f.processed.length - 1) := by rw [digits_eq (by omega)]; omega
        have h1 := rangeQueryC_le t f.processed p p hW
        generalize rangeQueryC t f.processed p p = q at h1
        obtain ⟨n, q⟩ := q
        simp only at h1 ⊢
        cases q with
        | exc e => simp only; omega
        | ub => simp only; omega
        | ok cur =>
          simp only
          cases t.rev v cur with
          | exc e => simp only; omega
          | ub => simp only; omega
          | ok diff =>
            simp only
            have h2 := C169_update t f.processed p diff
            split
            · simp only; omega
            · simp only; omega
      · exact Nat.zero_le _

/-- Building a tree of `n` elements from scratch visits at most `n` cells for every binary digit of `n`. -/
theorem C169_build (input : List T) : ((Tree.empty : Tree T).buildC t input input.length).1 ≤ input.length * digits input.length := by
  unfold Tree.buildC
  simp only [Nat.lt_irrefl, if_false, Tree.empty, List.length_nil]
  rw [if_pos (by omega)]
  have := buildLoopC_le t (input.take (input.length + 1 - 1)) (List.replicate (input.length + 1) t.null) 1
  rw [List.length_replicate, show input.length + 1 - 1 = input.length by omega] at this
  rw [show input.length + 1 - 1 = input.length by omega]
  rw [List.take_length] at this ⊢
  exact this

/-- It visits at least one for every element. -/
theorem C169_build_least (input : List T) (hW : input.length < W) : input.length ≤ ((Tree.empty : Tree T).buildC t input input.length).1 := by
  have key : ∀ (xs : List T) (cells : List T) ii, 0 < ii → ii + xs.length ≤ cells.length → cells.length ≤ W → xs.length ≤ (buildLoopC t cells ii xs).1 := by
    intro xs
    induction xs with
    | nil => intro cells ii _ _ _; exact Nat.zero_le _
    | cons x xs ih =>
      intro cells ii h0 h1 h2
      rw [List.length_cons] at h1
      have h3 := ih (updateCellsC t cells ii x).2 (ii + 1) (by omega) (by rw [updateCellsC_length]; omega) (by rw [updateCellsC_length]; omega)
      have h4 : 1 ≤ (updateCellsC t cells ii x).1 := by
        rw [updateCellsC, dif_pos ⟨h0, by omega, by omega⟩]
        exact Nat.le_add_left ..
      simp only [buildLoopC, List.length_cons]
      omega
  unfold Tree.buildC
  simp only [Nat.lt_irrefl, if_false, Tree.empty, List.length_nil]
  rw [if_pos (by omega), Nat.add_sub_cancel, List.take_length]
  exact key input _ 1 (by omega) (by rw [List.length_replicate]; omega) (by rw [List.length_replicate]; omega)

/-- A query of `[p, q]` reads exactly as many cells as `p - 1` and `q` together have ones. -/
theorem C169_query (f : Tree T) (hb : f.built = true) (hW : f.processed.length ≤ W) (p q : Nat) (h0 : 0 < p) (h1 : p ≤ q)
    (h2 : q < f.processed.length) :
    (f.queryC t p q).1 = ones (p - 1) + ones q := by
  have h3 : (f.processed.length + (W - 1)) % W = f.processed.length - 1 := by
    rw [show f.processed.length + (W - 1) = f.processed.length - 1 + W by omega, Nat.add_mod_right, Nat.mod_eq_of_lt (by omega)]
  have total : ∀ i v, ∃ w, (queryLoopC t f.processed i v).2 = .ok w ∨ f.processed.length ≤ i := by
    intro i
    induction i using Nat.strongRecOn with
    | _ i ih =>
      intro v
      by_cases hi : f.processed.length ≤ i
      · exact ⟨v, .inr hi⟩
      rw [queryLoopC]
      by_cases h : 0 < nextQuery i ∧ nextQuery i < i
      · simp only [dif_pos h]
        have hr : rd f.processed (nextQuery i) = .ok (f.processed[nextQuery i]'(by omega)) := by
          unfold rd; rw [List.getElem?_eq_getElem (by omega)]
        rw [hr]
        simp only
        obtain ⟨w, hw | hw⟩ := ih _ h.2 (t.op (f.processed[nextQuery i]'(by omega)) v)
        · exact ⟨w, .inl hw⟩
        · omega
      · simp only [dif_neg h]
        exact ⟨v, .inl rfl⟩
  have pre : ∀ i, i < f.processed.length → ∃ w, (prefixQueryC t f.processed i).2 = .ok w := by
    intro i hi
    unfold prefixQueryC
    have hr : rd f.processed i = .ok f.processed[i] := by unfold rd; rw [List.getElem?_eq_getElem hi]
    rw [hr]
    obtain ⟨w, hw | hw⟩ := total i f.processed[i]
    · exact ⟨w, hw⟩
    · omega
  unfold Tree.queryC
  rw [if_neg (by simp [hb])]
  simp only [h3]
  rw [show min (min p q) (f.processed.length - 1) = p by omega, show min (max p q) (f.processed.length - 1) = q by omega]
  unfold rangeQueryC
  obtain ⟨w, hw⟩ := pre q h2
  by_cases hp : p ≤ 1
  · simp only [if_pos hp, hw]
    rw [C169_prefix t _ q (by omega) h2 (by omega), show p - 1 = 0 by omega,
      show ones 0 = 0 by rw [ones, if_pos rfl]]
  · simp only [if_neg hp]
    obtain ⟨w', hw'⟩ := pre (p - 1) (by omega)
    simp only [hw', hw]
    rw [C169_prefix t _ q (by omega) h2 (by omega), C169_prefix t _ (p - 1) (by omega) (by omega) (by omega)]

/-- `set_value` visits the cells of a query of its position and, unless there is nothing to change, those of an update. -/
theorem C169_set_value (f : Tree T) (hb : f.built = true) (hW : f.processed.length ≤ W) (p : Nat) (h0 : 0 < p)
    (h2 : p < f.processed.length) (v cur d : T) (hq : f.query t p p = .ok cur) (hd : t.rev v cur = .ok d) :
    (f.setValueC t p v).1 = ones (p - 1) + ones p + (f.updateC t p d).1 := by
  have hc := C169_query t f hb hW p p h0 (Nat.le_refl _) h2
  have hs := (C169_same t f).2.2.1 p p
  rw [hq] at hs
  have h3 : (f.processed.length + (W - 1)) % W = f.processed.length - 1 := by
    rw [show f.processed.length + (W - 1) = f.processed.length - 1 + W by omega, Nat.add_mod_right, Nat.mod_eq_of_lt (by omega)]
  have he : f.queryC t p p = rangeQueryC t f.processed p p := by
    unfold Tree.queryC
    simp only [hb, Bool.not_true, Bool.false_eq_true, if_false, h3]
    rw [show min (min p p) (f.processed.length - 1) = p by omega, show min (max p p) (f.processed.length - 1) = p by omega]
  rw [he] at hc hs
  unfold Tree.setValueC Tree.updateC
  simp only [hb, Bool.not_true, Bool.false_eq_true, if_false, h2, h0, decide_true, Bool.and_self, if_true, hs, hd, Bool.true_and]
  cases t.truthy d with
  | true => simp only [if_true, hc]
  | false => simp only [Bool.false_eq_true, if_false, hc, Nat.add_zero]

/-- An update of the first element visits all powers of two: as many cells as the bound says, whatever the size. -/
theorem C169_tight (k : Nat) (hk : k < 64) (cells : List T) (hl : cells.length = 2 ^ k + 1) (v : T) :
    (updateCellsC t cells 1 v).1 = digits (cells.length - 1) := by
  have key : ∀ d i (cells : List T), i + d = k → cells.length = 2 ^ k + 1 → (updateCellsC t cells (2 ^ i) v).1 = d + 1 := by
    intro d
    induction d with
    | zero =>
      intro i cells hi hl
      have hik : i = k := by omega
      subst hik
      have h1 : 0 < 2 ^ i := Nat.two_pow_pos i
      have h2 : 2 ^ i < W := Nat.pow_lt_pow_right (by omega) hk
      rw [updateCellsC, dif_pos ⟨h1, by omega, h2⟩]
      simp only
      rw [updateCellsC, dif_neg]
      have h3 := low_pow i
      rw [List.length_set]
      rcases nextUpdate_cases _ h1 h2 with ⟨h4, h5⟩ | ⟨h4, h5⟩ <;> omega
    | succ d ih =>
      intro i cells hi hl
      have h1 : 0 < 2 ^ i := Nat.two_pow_pos i
      have h2 : 2 ^ i < W := Nat.pow_lt_pow_right (by omega) (by omega)
      have h6 : 2 ^ (i + 1) ≤ 2 ^ k := Nat.pow_le_pow_right (by omega) (by omega)
      have h7 : 2 ^ k < W := Nat.pow_lt_pow_right (by omega) hk
      rw [Nat.pow_succ] at h6
      rw [updateCellsC, dif_pos ⟨h1, by omega, h2⟩]
      simp only
      have h3 := low_pow i
      have hn : nextUpdate (2 ^ i) = 2 ^ (i + 1) := by
        rw [Nat.pow_succ]
        rcases nextUpdate_cases _ h1 h2 with ⟨h4, h5⟩ | ⟨h4, h5⟩ <;> omega
      rw [hn, ih (i + 1) _ (by omega) (by rw [List.length_set]; exact hl)]
  have h := key k 0 cells (by omega) hl
  rw [Nat.pow_zero] at h
  rw [h, hl, Nat.add_sub_cancel, digits_eq (Nat.two_pow_pos k), Nat.log2_two_pow]

/-- `digits` is the logarithm. -/
theorem C169_digits (n : Nat) (h : 0 < n) : digits n = Nat.log2 n + 1 := digits_eq h

/-- Sums of integers. -/
private def sums : Transform Int := ⟨(· + ·), fun a b => .ok (a - b), 0, (· ≠ 0), 0⟩

example : (Tree.empty.buildC sums [1, 1, 1, 1] 4).1 = 8 := by decide +kernel
example : (updateCellsC sums [0, 1, 2, 1, 4, 1, 2, 1, 8] 1 5).1 = 4 := by decide +kernel
example : ((⟨[0, 1, 2, 1, 4, 1, 2, 1, 8], true⟩ : Tree Int).queryC sums 4 7).1 = 5 := by decide +kernel
example : ((⟨[0, 1, 2, 1, 4, 1, 2, 1, 8], true⟩ : Tree Int).queryC sums 4 7).2 = .ok 4 := by decide +kernel
example : ((⟨[0, 1, 2, 1, 4, 1, 2, 1, 8], true⟩ : Tree Int).setValueC sums 7 5).1 = 7 := by decide +kernel

end Verif.Fenwick
