import Verif.Signed
import Verif.Fenwick.Product

/-!
The Fenwick tree of products over a signed integer type with the values `lo … hi` (structures/fenwick_tree.h, `T = int`,
`transform_t = multiplication_t<int>`): a multiplication or division whose result does not fit is undefined, and so is a division
by zero.
-/

namespace Verif.Fenwick
open Spec (addressed)

variable (lo hi : Int)

/-- tools/math_operation.h:102-111 `division_t`, for a quotient that may not fit (`INT_MIN / -1`). -/
def divS (a b : Int) : Res Int := if b = 0 then .ub else chk lo hi (a.tdiv b)

/-- structures/fenwick_tree.h:264-271 `_update`. -/
def mulCellsS (cells : List Int) (position : Nat) (value : Int) : Res (List Int) :=
  if h : 0 < position ∧ position < cells.length ∧ position < W then do
    let x ← chk lo hi (cells[position]'h.2.1 * value)
    mulCellsS (cells.set position x) (nextUpdate position) value
  else .ok cells
termination_by if position = 0 then 0 else cells.length - position
decreasing_by
  have := nextUpdate_cases position h.1 h.2.2
  simp only [List.length_set]
  split <;> split <;> omega

/-- structures/fenwick_tree.h:284-286, the loop of `_range_query(position)`. -/
def mulLoopS (cells : List Int) (index : Nat) (value : Int) : Res Int :=
  let next := nextQuery index
  if h : 0 < next ∧ next < index then do
    let c ← rd cells next
    let v ← chk lo hi (c * value)
    mulLoopS cells next v
  else .ok value
termination_by index
decreasing_by exact h.2

/-- structures/fenwick_tree.h:279-288 `_range_query(position)`. -/
def mulPrefixS (cells : List Int) (position : Nat) : Res Int := do
  let v ← rd cells position
  mulLoopS lo hi cells position v

/-- structures/fenwick_tree.h:314-321 `_range_query(start, end)`. -/
def mulRangeS (cells : List Int) (start stop : Nat) : Res Int := do
  let discarded ← if start ≤ 1 then .ok 0 else mulPrefixS lo hi cells (start - 1)
  let value ← mulPrefixS lo hi cells stop
  if discarded ≠ 0 then divS lo hi value discarded else .ok value

/-- structures/fenwick_tree.h:251-253, the loop of `_build`. -/
def mulBuildS (cells : List Int) (ii : Nat) : List Int → Res (List Int)
  | [] => .ok cells
  | x :: rest => do
    let cells ← mulCellsS lo hi cells ii x
    mulBuildS cells (ii + 1) rest

/-- structures/fenwick_tree.h:236-256 `_build`. -/
def Tree.buildM (f : Tree Int) (input : List Int) (numberOfElements : Nat) : Res (Tree Int) :=
  let size := if numberOfElements < input.length then numberOfElements + 1 else input.length + 1
  let cells :=
    if f.processed.length < size then List.replicate size 1
    else if f.built then List.replicate size 1
    else f.processed
  do
    let cells ← mulBuildS lo hi cells 1 (input.take (size - 1))
    .ok ⟨cells, true⟩

/-- structures/fenwick_tree.h:89-99 `update`. -/
def Tree.updateM (f : Tree Int) (position : Nat) (value : Int) : Res (Tree Int × Bool) :=
  if !f.built then .exc .notBuilt
  else
    let ok := decide (position < f.processed.length)
    if ok && decide (value ≠ 0) then do
      let cells ← mulCellsS lo hi f.processed position value
      .ok ({ f with processed := cells }, ok)
    else .ok (f, ok)

/-- structures/fenwick_tree.h:166-172 `query`. -/
def Tree.queryM (f : Tree Int) (start stop : Nat) : Res Int :=
  if !f.built then .exc .notBuilt
  else
    let last := (f.processed.length + (W - 1)) % W
    mulRangeS lo hi f.processed (min (min start stop) last) (min (max start stop) last)

/-- structures/fenwick_tree.h:183-196 `set_value`. -/
def Tree.setValueM (f : Tree Int) (position : Nat) (value : Int) : Res (Tree Int × Bool) :=
  if !f.built then .exc .notBuilt
  else
    let ok := decide (position < f.processed.length) && decide (0 < position)
    if ok then do
      let cur ← mulRangeS lo hi f.processed position position
      let diff ← divS lo hi value cur
      if diff ≠ 0 then do
        let cells ← mulCellsS lo hi f.processed position diff
        .ok ({ f with processed := cells }, ok)
      else .ok (f, ok)
    else .ok (f, ok)

/-- The calls on one product tree. -/
inductive MOp where
  | rebuild (input : List Int) (n : Nat)
  | update (p : Nat) (v : Int)
  | setValue (p : Nat) (v : Int)
  | resize (k : Nat)
  | query (x y : Nat)
deriving DecidableEq, Repr

/-- One call; the second component is the answer of a query. -/
def stepM (f : Tree Int) : MOp → Res (Tree Int × Option Int)
  | .rebuild input n => do let f ← f.buildM lo hi input n; .ok (f, none)
  | .update p v => do let (f, _) ← f.updateM lo hi p v; .ok (f, none)
  | .setValue p v => do let (f, _) ← f.setValueM lo hi p v; .ok (f, none)
  | .resize k => .ok (f.resize k, none)
  | .query x y => do let v ← f.queryM lo hi x y; .ok (f, some v)

/-- A history of calls; the answers of the queries. -/
def runM (f : Tree Int) : List MOp → Res (List Int)
  | [] => .ok []
  | o :: os => do
    let (f, v) ← stepM lo hi f o
    let vs ← runM f os
    .ok (v.toList ++ vs)

/-! ### Specification -/

namespace Spec

/-- Every product of neighbouring elements fits. -/
def ProdsFit (lo hi : Int) (a : List Int) : Prop := ∀ i j, Fits lo hi (((a.take j).drop i).foldr (· * ·) 1)

/-- What the calls do to the elements when integers have no bounds (see C07 and C106: a factor or quotient 0 is ignored). -/
def elems (a : List Int) : MOp → List Int
  | .rebuild input n => input.take n
  | .update p v => if v ≠ 0 ∧ 1 ≤ p ∧ p ≤ a.length then a.modify (p - 1) (· * v) else a
  | .setValue p v => if 1 ≤ p ∧ p ≤ a.length then a.modify (p - 1) fun e => if v.tdiv e = 0 then e else e * v.tdiv e else a
  | .resize k => a.take (k - 1)
  | .query _ _ => a

/-- The answers of the queries when integers have no bounds (see C06: a zero before the range gives 0). -/
def answers (a : List Int) : List MOp → List Int
  | [] => []
  | .query x y :: os => (if 0 ∈ a.take (min (min x y) a.length - 1) then 0 else (addressed a x y).foldr (· * ·) 1) :: answers a os
  | o :: os => answers (elems a o) os

/-- The call is allowed: sizes are in range, and `set_value` does not divide by zero. -/
def Allowed (a : List Int) : MOp → Prop
  | .rebuild input n => min n input.length + 1 ≤ W
  | .setValue p _ => 1 ≤ p → p ≤ a.length → 0 ∉ a.take p
  | .resize k => 1 ≤ k
  | _ => True

/-- All calls are allowed, and the products fit before and after each. -/
def ProdRun (lo hi : Int) (a : List Int) : List MOp → Prop
  | [] => ProdsFit lo hi a
  | o :: os => ProdsFit lo hi a ∧ Allowed a o ∧ ProdRun lo hi (elems a o) os

/-- The quotient of the new value of a `set_value` by the old one fits. -/
def QuotFits (lo hi : Int) (a : List Int) : MOp → Prop
  | .setValue p v => ∀ x, 1 ≤ p → a[p - 1]? = some x → Fits lo hi (v.tdiv x)
  | _ => True

def RunQuot (lo hi : Int) (a : List Int) : List MOp → Prop
  | [] => True
  | o :: os => QuotFits lo hi a o ∧ RunQuot lo hi (elems a o) os

end Spec

open Spec

variable {lo hi}

/-! ### No call overflows -/

theorem ProdsFit.slice {a : List Int} (h : ProdsFit lo hi a) (i j : Nat) : Fits lo hi (F mulT (slice a i j)) := h i j

theorem mulCellsS_eq {cells : List Int} {p : Nat} {v : Int} (hW : cells.length ≤ W)
    (hall : ∀ i x, i ≠ 0 → (updateCells mulT cells p v)[i]? = some x → Fits lo hi x) :
    mulCellsS lo hi cells p v = .ok (updateCells mulT cells p v) := by
  fun_induction updateCells mulT cells p v with
  | case1 cells p h ih =>
    have hx : (updateCells mulT (cells.set p (mulT.op cells[p] v)) (nextUpdate p) v)[p]? = some (cells[p] * v) := by
      obtain ⟨h0, h1, h2⟩ := h
      rcases nextUpdate_cases p h0 h2 with ⟨e, hgt⟩ | ⟨e, he⟩
      · rw [updateCells_get _ _ _ _ (by omega) (by simpa using hW), if_neg (by omega), List.getElem?_set_self h1]
        rfl
      · rw [e, updateCells_zero, List.getElem?_set_self h1]
        rfl
    unfold mulCellsS
    rw [dif_pos h, chk_ok (hall p _ (by omega) hx)]
    exact ih (by simpa using hW) hall
  | case2 cells p h =>
    unfold mulCellsS
    rw [dif_neg h]

theorem Inv.prodFits {cells a : List Int} (h : Inv mulT cells a) (hf : ProdsFit lo hi a) (i : Nat) (x : Int) (h0 : i ≠ 0)
    (hx : cells[i]? = some x) : Fits lo hi x := by
  have hl : i < cells.length := (List.getElem?_eq_some_iff.1 hx).1
  rw [h.cell i (by omega) (by have := h.len; omega)] at hx
  cases hx
  exact ProdsFit.slice hf _ _

theorem Inv.mulCellsS {cells a : List Int} (h : Inv mulT cells a) {p : Nat} {v : Int} (h1 : 1 ≤ p) (h2 : p ≤ a.length)
    (hf : ProdsFit lo hi (a.modify (p - 1) (· * v))) : mulCellsS lo hi cells p v = .ok (updateCells mulT cells p v) := by
  have hu := h.update mulT_lawful p v h1 h2
  exact mulCellsS_eq h.lenW fun i x h0 hx => hu.prodFits hf i x h0 hx

theorem Inv.mulLoopS {cells a : List Int} (h : Inv mulT cells a) (hf : ProdsFit lo hi a) (j : Nat) (i : Nat) (hi' : i ≤ a.length)
    (hj : i ≤ j) :
    Verif.Fenwick.mulLoopS lo hi cells i (F mulT (slice a (i - low i) j)) = Verif.Fenwick.queryLoop mulT cells i (F mulT (slice a (i - low i) j)) := by
  induction i using Nat.strongRecOn with
  | _ i ih =>
    have hiW : i < W := by have := h.len; have := h.lenW; omega
    have e : nextQuery i = i - low i := by unfold nextQuery; rw [lsb_eq_low i hiW]
    unfold Verif.Fenwick.mulLoopS Verif.Fenwick.queryLoop
    simp only [e]
    split
    · next hc =>
      rw [h.get (i - low i) (by omega)]
      simp only [Res.bind_ok]
      have hs' : mulT.op (F mulT (slice a (i - low i - low (i - low i)) (i - low i))) (F mulT (slice a (i - low i) j)) =
          F mulT (slice a (i - low i - low (i - low i)) j) := by
        rw [← F_append mulT_lawful, slice_append (by omega) (by omega)]
      have hs : F mulT (slice a (i - low i - low (i - low i)) (i - low i)) * F mulT (slice a (i - low i) j) =
          F mulT (slice a (i - low i - low (i - low i)) j) := hs'
      rw [hs, hs', chk_ok (ProdsFit.slice hf _ _)]
      exact ih (i - low i) (by omega) (by omega) (by omega)
    · rfl

theorem Inv.mulPrefixS {cells a : List Int} (h : Inv mulT cells a) (hf : ProdsFit lo hi a) {i : Nat} (hi' : i ≤ a.length) :
    Verif.Fenwick.mulPrefixS lo hi cells i = .ok (F mulT (a.take i)) := by
  rw [← h.prefixQuery mulT_lawful i hi']
  unfold Verif.Fenwick.mulPrefixS Verif.Fenwick.prefixQuery
  rw [h.get i hi']
  exact h.mulLoopS hf i i hi' (Nat.le_refl _)

/-- The answer of a range query: 0 after a zero, otherwise the product. -/
theorem Inv.mulRangeS {cells a : List Int} (h : Inv mulT cells a) (hf : ProdsFit lo hi a) {x y : Nat} (h1 : x ≤ y) (h2 : y ≤ a.length) :
    Verif.Fenwick.mulRangeS lo hi cells x y = .ok (if 0 ∈ a.take (x - 1) then 0 else F mulT (slice a (x - 1) y)) := by
  have hsplit : F mulT (a.take y) = F mulT (a.take (x - 1)) * F mulT (slice a (x - 1) y) := by
    have : F mulT (slice a 0 y) = mulT.op (F mulT (slice a 0 (x - 1))) (F mulT (slice a (x - 1) y)) := by
      rw [← F_append mulT_lawful, slice_append (by omega) (by omega)]
    simp only [slice, List.drop_zero] at this
    exact this
  unfold Verif.Fenwick.mulRangeS
  rw [h.mulPrefixS hf h2]
  by_cases hx : x ≤ 1
  · have e : x - 1 = 0 := by omega
    rw [if_pos hx, e]
    simp [slice]
  · rw [if_neg hx, h.mulPrefixS hf (by omega)]
    simp only [Res.bind_ok]
    by_cases hz : 0 ∈ a.take (x - 1)
    · rw [if_pos hz, F_mul_zero _ hz, if_neg (by simp), hsplit, F_mul_zero _ hz, Int.zero_mul]
    · have hne : F mulT (a.take (x - 1)) ≠ 0 := F_mul_ne_zero _ fun e he h0 => hz (h0 ▸ he)
      rw [if_neg hz, if_pos hne, divS, if_neg hne, hsplit, Int.mul_tdiv_cancel_left _ hne, chk_ok (ProdsFit.slice hf _ _)]

theorem Inv.mulBuildS (rest : List Int) : ∀ (cells done : List Int), ProdsFit lo hi (done ++ rest) →
    Inv mulT cells (done ++ List.replicate rest.length 1) →
    Verif.Fenwick.mulBuildS lo hi cells (done.length + 1) rest = .ok (Verif.Fenwick.buildLoop mulT cells (done.length + 1) rest) := by
  induction rest with
  | nil => intro cells done _ h; rfl
  | cons x rest ih =>
    intro cells done hf h
    have e : (done ++ List.replicate (x :: rest).length (1 : Int)).modify (done.length + 1 - 1) (· * x)
        = (done ++ [x]) ++ List.replicate rest.length 1 := by
      simp only [List.length_cons, List.replicate_succ, Nat.add_sub_cancel]
      rw [modify_append_mid]
      simp
    have hu := h.update mulT_lawful (done.length + 1) x (by omega) (by simp)
    have e' : (done ++ List.replicate (x :: rest).length (1 : Int)).modify (done.length + 1 - 1) (fun y => mulT.op y x)
        = (done ++ [x]) ++ List.replicate rest.length 1 := e
    rw [e'] at hu
    have hz : ∀ n, ProdsFit lo hi ((done ++ [x]) ++ List.replicate n 1) := by
      intro n i j
      have e1 : (done ++ x :: rest).take (min j (done.length + 1)) = (done ++ [x]).take j := by
        have : done ++ x :: rest = (done ++ [x]) ++ rest := by simp
        rw [this, List.take_append_of_le_length (by simp; omega)]
        have := (List.take_eq_take_min (l := done ++ [x]) (i := j)).symm
        simpa using this
      have h1 := hf i (min j (done.length + 1))
      rw [e1] at h1
      have h2 : (((done ++ [x] ++ List.replicate n 1).take j).drop i).foldr (· * ·) 1 = (((done ++ [x]).take j).drop i).foldr (· * ·) 1 := by
        rw [List.take_append, List.drop_append, List.take_replicate, List.drop_replicate]
        have := F_append mulT_lawful (((done ++ [x]).take j).drop i)
          (List.replicate (min (j - (done ++ [x]).length) n - (i - ((done ++ [x]).take j).length)) 1)
        rw [show (1 : Int) = mulT.null from rfl, F_replicate_null mulT_lawful, mulT_lawful.op_null] at this
        exact this
      rw [h2]
      exact h1
    unfold Verif.Fenwick.mulBuildS Verif.Fenwick.buildLoop
    rw [h.mulCellsS (by omega) (by simp) (by rw [e]; exact hz _), Res.bind_ok]
    have := ih (updateCells mulT cells (done.length + 1) x) (done ++ [x]) (by simpa using hf) hu
    simpa using this

theorem buildM_eq {f : Tree Int} (hb : f.built = true ∨ Unbuilt f) {input : List Int} {n : Nat} (hW : min n input.length + 1 ≤ W)
    (hf : ProdsFit lo hi (input.take n)) : f.buildM lo hi input n = .ok (f.build mulT input n) := by
  unfold Tree.build Tree.buildM
  have hsize : (if n < input.length then n + 1 else input.length + 1) = min n input.length + 1 := by
    split <;> omega
  simp only [hsize, Nat.add_sub_cancel]
  have hc : ∀ t : Int, (if f.processed.length < min n input.length + 1 then List.replicate (min n input.length + 1) t
      else if f.built = true then List.replicate (min n input.length + 1) t else f.processed) =
      List.replicate (min n input.length + 1) t := by
    intro t
    rcases hb with hb | ⟨hb, hp⟩
    · simp [hb]
    · simp [hp]
  rw [hc, hc]
  have h0 := Inv.init mulT_lawful (min n input.length) hW
  have e : input.take (min n input.length) = input.take n := List.take_eq_take_min.symm
  rw [e]
  have := Inv.mulBuildS (lo := lo) (hi := hi) (input.take n) (List.replicate (min n input.length + 1) 1) [] (by simpa using hf)
    (by rw [List.nil_append, List.length_take]; exact h0)
  have e2 : Verif.Fenwick.mulBuildS lo hi (List.replicate (min n input.length + 1) 1) 1 (input.take n) =
      .ok (Verif.Fenwick.buildLoop mulT (List.replicate (min n input.length + 1) 1) 1 (input.take n)) := by simpa using this
  rw [e2]
  rfl

theorem Reps.updateM {f : Tree Int} {a : List Int} (h : Reps mulT f a) {p : Nat} {v : Int}
    (hf : ProdsFit lo hi (mulUpdate a p v)) : f.updateM lo hi p v = f.update mulT p v := by
  obtain ⟨hb, hi'⟩ := h
  have hl := hi'.len
  unfold Tree.updateM Tree.update
  simp only [hb, Bool.not_true, Bool.false_eq_true, if_false]
  have e : mulT.truthy v = decide (v ≠ 0) := rfl
  rw [e]
  split
  · next hc =>
    simp only [Bool.and_eq_true, decide_eq_true_eq] at hc
    by_cases hp : 1 ≤ p
    · rw [mulUpdate, if_pos ⟨hc.2, hp, by omega⟩] at hf
      rw [hi'.mulCellsS hp (by omega) hf]
      rfl
    · have : p = 0 := by omega
      subst this
      rw [updateCells_zero]
      unfold Verif.Fenwick.mulCellsS
      rw [dif_neg (by omega)]
      rfl
  · rfl

theorem Reps.queryM {f : Tree Int} {a : List Int} (h : Reps mulT f a) (hf : ProdsFit lo hi a) (x y : Nat) :
    f.queryM lo hi x y = .ok (if 0 ∈ a.take (min (min x y) a.length - 1) then 0 else (addressed a x y).foldr (· * ·) 1) := by
  obtain ⟨hb, hi'⟩ := h
  have hl := hi'.len
  have hW := hi'.lenW
  unfold Tree.queryM
  simp only [hb, Bool.not_true, Bool.false_eq_true, if_false]
  rw [hl, length_last (by omega), hi'.mulRangeS hf (by omega) (by omega)]
  unfold Spec.addressed Spec.positions slice
  have e : max 1 (min (min x y) a.length) - 1 = min (min x y) a.length - 1 := by omega
  rw [e]; rfl

open Classical in
/-- `set_value` overflows exactly if the quotient does not fit. -/
theorem Reps.setValueM {f : Tree Int} {a : List Int} (h : Reps mulT f a) (hf : ProdsFit lo hi a) {p : Nat} {v : Int}
    (hz : 1 ≤ p → p ≤ a.length → 0 ∉ a.take p) (hf' : ProdsFit lo hi (mulSet a p v)) :
    f.setValueM lo hi p v =
      if ∀ x, 1 ≤ p → a[p - 1]? = some x → Fits lo hi (v.tdiv x) then f.setValue mulT p v else .ub := by
  obtain ⟨hb, hi'⟩ := h
  have hl := hi'.len
  unfold Tree.setValueM Tree.setValue
  simp only [hb, Bool.not_true, Bool.false_eq_true, if_false]
  have e : (decide (p < f.processed.length) && decide (0 < p)) = decide (1 ≤ p ∧ p ≤ a.length) := by
    rw [hl, ← Bool.decide_and]; congr 1; rw [eq_iff_iff]; omega
  rw [e]
  by_cases hc : 1 ≤ p ∧ p ≤ a.length
  · have hz0 := hz hc.1 hc.2
    have hz1 : 0 ∉ a.take (p - 1) := fun hm => hz0 (by
      have : a.take (p - 1) = (a.take p).take (p - 1) := by rw [List.take_take, Nat.min_eq_left (by omega)]
      rw [this] at hm
      exact List.mem_of_mem_take hm)
    have hp0 : a[p - 1]'(by omega) ≠ 0 := by
      intro h0
      apply hz0
      rw [List.mem_take_iff_getElem]
      exact ⟨p - 1, by omega, h0⟩
    have hone : F mulT (slice a (p - 1) p) = a[p - 1]'(by omega) := by
      rw [slice_single a p hc.1 hc.2]
      simp [F, mulT]
    rw [hi'.mulRangeS hf (Nat.le_refl p) hc.2, if_neg hz1, mul_rangeQuery hi' p p (Nat.le_refl _) hc.2
      (F_mul_ne_zero _ fun e he h0 => hz1 (h0 ▸ he)), hone]
    have hg : a[p - 1]? = some (a[p - 1]'(by omega)) := List.getElem?_eq_getElem _
    have hrev : mulT.rev v (a[p - 1]'(by omega)) = .ok (v.tdiv (a[p - 1]'(by omega))) := by
      change (if _ then _ else _) = _
      rw [if_neg hp0]
    simp only [decide_eq_true hc, if_true, Res.bind_ok, hrev, divS, if_neg hp0]
    by_cases hn : Fits lo hi (v.tdiv (a[p - 1]'(by omega)))
    · rw [chk_ok hn, if_pos (fun x _ hx => by rw [hg] at hx; cases hx; exact hn)]
      simp only [Res.bind_ok]
      change _ = (if decide (v.tdiv (a[p - 1]'(by omega)) ≠ 0) = true then _ else _)
      by_cases h0 : v.tdiv (a[p - 1]'(by omega)) = 0
      · rw [if_neg (by simpa using h0), if_neg (by simpa using h0)]
      · have hm : mulSet a p v = a.modify (p - 1) (· * v.tdiv (a[p - 1]'(by omega))) := by
          unfold mulSet
          rw [if_pos hc]
          apply List.ext_getElem?
          intro i
          rw [List.getElem?_modify, List.getElem?_modify]
          split
          · rename_i hi'
            subst hi'
            rw [List.getElem?_eq_getElem (by omega)]
            simp [h0]
          · rfl
        rw [if_pos h0, if_pos (by simpa using h0), hi'.mulCellsS hc.1 hc.2 (by rw [← hm]; exact hf')]
        rfl
    · rw [chk_ub hn, if_neg (fun hx => hn (hx _ hc.1 hg))]
      rfl
  · simp only [decide_eq_false hc, Bool.false_eq_true, if_false]
    rw [if_pos]
    intro x h1 hx
    have := (List.getElem?_eq_some_iff.1 hx).1
    omega

theorem ProdRun.now {a : List Int} {ops : List MOp} (h : ProdRun lo hi a ops) : ProdsFit lo hi a := by
  cases ops with
  | nil => exact h
  | cons => exact h.1

theorem runM_eq (ops : List MOp) : ∀ {f : Tree Int} {a : List Int}, Reps mulT f a → ProdRun lo hi a ops → RunQuot lo hi a ops →
    runM lo hi f ops = .ok (answers a ops) := by
  induction ops with
  | nil => exact fun _ _ _ => rfl
  | cons o os ih =>
    intro f a h hf hq
    obtain ⟨h1, h2, h3⟩ := hf
    obtain ⟨q1, q2⟩ := hq
    cases o with
    | rebuild input n =>
      have e := buildM_eq (lo := lo) (hi := hi) (f := f) (.inl h.1) h2 (ProdRun.now h3)
      simp only [runM, stepM, e, Res.bind_ok, ih (build_reps mulT_lawful f input n (.inl h.1) h2) h3 q2]
      rfl
    | update p v =>
      have e := Reps.updateM (lo := lo) (hi := hi) h (p := p) (v := v) (ProdRun.now h3)
      obtain ⟨f', e1, e2⟩ := h.mul_any_update p v
      simp only [runM, stepM, e, e1, Res.bind_ok, ih e2 h3 q2]
      rfl
    | setValue p v =>
      have e := Reps.setValueM (lo := lo) (hi := hi) h h1 (p := p) (v := v) h2 (ProdRun.now h3)
      rw [if_pos (fun x => q1 x)] at e
      have : ∃ f' b, f.setValue mulT p v = .ok (f', b) ∧ Reps mulT f' (mulSet a p v) := by
        obtain ⟨s1, -, s3⟩ := mul_setValue h p v
        by_cases hp : 1 ≤ p ∧ p ≤ a.length
        · obtain ⟨f', t1, t2⟩ := s3 hp.1 hp.2 (h2 hp.1 hp.2)
          exact ⟨f', _, t1, t2⟩
        · exact ⟨f, _, s1 hp, by simpa [mulSet, hp] using h⟩
      obtain ⟨f', b, e1, e2⟩ := this
      simp only [runM, stepM, e, e1, Res.bind_ok, ih e2 h3 q2]
      rfl
    | resize k =>
      simp only [runM, stepM, Res.bind_ok, ih (h.resize k h2) h3 q2]
      rfl
    | query x y =>
      simp only [runM, stepM, h.queryM h1 x y, Res.bind_ok, ih h h3 q2]
      rfl

/-! ### C206 -/

/-- C206 in full: as long as all products of neighbouring elements fit the type, no call overflows, and the answers are those of
integers without bounds. -/
def C206_statement (lo hi : Int) : Prop :=
  ∀ (input : List Int) (n : Nat) (ops : List MOp), min n input.length + 1 ≤ W → ProdRun lo hi (input.take n) ops →
    (do let f ← Tree.empty.buildM lo hi input n; runM lo hi f ops) = .ok (answers (input.take n) ops)

/-- C206, the part that holds: no call overflows if in addition the quotient of the new and the old value of every `set_value`
fits.  Missing: `set_value` that replaces -1 by the least value of the type (`C206_set_value_exact`). -/
theorem C206_product_partial (input : List Int) (n : Nat) (ops : List MOp) (hW : min n input.length + 1 ≤ W)
    (hf : ProdRun lo hi (input.take n) ops) (hq : RunQuot lo hi (input.take n) ops) :
    (do let f ← Tree.empty.buildM lo hi input n; runM lo hi f ops) = .ok (answers (input.take n) ops) := by
  rw [buildM_eq (.inr ⟨rfl, rfl⟩) hW (ProdRun.now hf), Res.bind_ok]
  exact runM_eq ops (build_reps mulT_lawful _ input n (.inr ⟨rfl, rfl⟩) hW) hf hq

/-- The only quotient that does not fit a two's complement type. -/
theorem tdiv_fits {v x : Int} (hlo : lo = -hi - 1) (hv : Fits lo hi v) (hx : x ≠ 0) : ¬ Fits lo hi (v.tdiv x) ↔ v = lo ∧ x = -1 := by
  have hq := Int.natAbs_tdiv v x
  by_cases h1 : x = 1
  · subst h1
    rw [Int.tdiv_one]
    omega
  · by_cases h2 : x = -1
    · subst h2
      rw [Int.tdiv_neg, Int.tdiv_one]
      unfold Fits at *
      omega
    · have h3 : 2 ≤ x.natAbs := by omega
      have h4 : v.natAbs.div x.natAbs ≤ v.natAbs / 2 := Nat.div_le_div_left h3 (by omega)
      unfold Fits at *
      omega

/-- C206, exactly: when the products fit before and after it and nothing is divided by zero, `set_value` on a two's complement
type overflows if and only if it replaces -1 by the least value. -/
theorem C206_set_value_exact {f : Tree Int} {a : List Int} (ha : MulHist f a) (hlo : lo = -hi - 1) (hs : ProdsFit lo hi a) {p : Nat}
    {v x : Int} (hp : 1 ≤ p) (hx : a[p - 1]? = some x) (hz : 0 ∉ a.take p) (hv : Fits lo hi v)
    (hs' : ProdsFit lo hi (elems a (.setValue p v))) : f.setValueM lo hi p v = .ub ↔ v = lo ∧ x = -1 := by
  obtain ⟨hl, hxe⟩ := List.getElem?_eq_some_iff.1 hx
  have hx0 : x ≠ 0 := fun h0 => hz (by
    rw [List.mem_take_iff_getElem]
    exact ⟨p - 1, by omega, by rw [hxe, h0]⟩)
  rw [Reps.setValueM ha.reps hs (fun _ _ => hz) hs', ← tdiv_fits hlo hv hx0]
  constructor
  · intro e hfit
    rw [if_pos (fun y _ hy => by rw [hx] at hy; cases hy; exact hfit)] at e
    obtain ⟨f', e', -⟩ := (mul_setValue ha.reps p v).2.2 hp (by omega) hz
    rw [e'] at e
    cases e
  · intro hfit
    rw [if_neg (fun h' => hfit (h' x hp hx))]

theorem prodsFit_one {v : Int} (h1 : Fits lo hi 1) (hv : Fits lo hi v) : ProdsFit lo hi [v] := by
  intro i j
  rcases j with _ | j
  · simpa using h1
  · rcases i with _ | i
    · simpa using hv
    · simpa using h1

/-- C206 fails for every two's complement type: a tree with the one element -1, which `set_value` replaces by the least value. -/
theorem C206_counterexample (hlo : lo = -hi - 1) (hhi : 1 ≤ hi) : ¬ C206_statement lo hi := by
  intro h
  have f1 : ProdsFit lo hi [-1] := prodsFit_one ⟨by omega, by omega⟩ ⟨by omega, by omega⟩
  have f2 : ProdsFit lo hi [lo] := prodsFit_one ⟨by omega, by omega⟩ ⟨by omega, by omega⟩
  have e1 : elems [-1] (.setValue 1 lo) = [lo] := by
    have : lo.tdiv (-1) = -lo := by rw [Int.tdiv_neg, Int.tdiv_one]
    have h0 : ¬ -lo = 0 := by omega
    simp [elems, this, h0]
  have e := h [-1] 1 [.setValue 1 lo] (by simp [W]) ⟨f1, by simp [Allowed], by
    rw [show List.take 1 [(-1 : Int)] = [-1] from rfl, e1]; exact f2⟩
  rw [buildM_eq (.inr ⟨rfl, rfl⟩) (by simp [W]) f1, Res.bind_ok] at e
  have hb : MulHist (Tree.empty.build mulT [-1] 1) [-1] := .build [-1] 1 (by simp [W])
  have hu := (C206_set_value_exact hb hlo f1 (p := 1) (v := lo) (x := -1) (Nat.le_refl _) rfl (by simp) ⟨by omega, by omega⟩
    (by rw [e1]; exact f2)).2 ⟨rfl, rfl⟩
  simp only [runM, stepM, hu, Res.bind_ub] at e
  cases e

/-! ### The converse: which products must fit -/

/-- Every cell holds a value of the type. -/
abbrev CellsFit (lo hi : Int) (cells : List Int) : Prop := ∀ x ∈ cells, Fits lo hi x

/-- An update that returns computes what it computes without bounds, and its cells fit. -/
theorem mulCellsS_ok (cells : List Int) (p : Nat) (v : Int) : ∀ c, mulCellsS lo hi cells p v = .ok c →
    c = updateCells mulT cells p v ∧ (CellsFit lo hi cells → CellsFit lo hi c) := by
  fun_induction updateCells mulT cells p v with
  | case1 cells p h ih =>
    intro c hc
    unfold mulCellsS at hc
    rw [dif_pos h] at hc
    obtain ⟨x, hx, hc⟩ := Res.bind_eq_ok.1 hc
    obtain ⟨rfl, hfx⟩ := chk_eq hx
    obtain ⟨e, hfit⟩ := ih c hc
    refine ⟨e, fun hcells => hfit fun y hy => ?_⟩
    rcases List.mem_or_eq_of_mem_set hy with h | rfl
    · exact hcells y h
    · exact hfx
  | case2 cells p h =>
    intro c hc
    unfold mulCellsS at hc
    rw [dif_neg h] at hc
    cases hc
    exact ⟨rfl, id⟩

theorem mulBuildS_ok (rest : List Int) : ∀ (cells : List Int) (ii : Nat) (c : List Int), mulBuildS lo hi cells ii rest = .ok c →
    c = buildLoop mulT cells ii rest ∧ (CellsFit lo hi cells → CellsFit lo hi c) := by
  induction rest with
  | nil => intro cells ii c h; cases h; exact ⟨rfl, id⟩
  | cons x rest ih =>
    intro cells ii c h
    obtain ⟨c1, h1, h2⟩ := Res.bind_eq_ok.1 h
    obtain ⟨rfl, f1⟩ := mulCellsS_ok _ _ _ _ h1
    obtain ⟨rfl, f2⟩ := ih _ _ _ h2
    exact ⟨rfl, fun h => f2 (f1 h)⟩

theorem buildM_ok {f g : Tree Int} {input : List Int} {n : Nat} (h : f.buildM lo hi input n = .ok g) :
    g = f.build mulT input n ∧ (Fits lo hi 1 → CellsFit lo hi f.processed → CellsFit lo hi g.processed) := by
  unfold Tree.buildM at h
  obtain ⟨c, h1, h2⟩ := Res.bind_eq_ok.1 h
  obtain ⟨rfl, f1⟩ := mulBuildS_ok _ _ _ _ h1
  cases h2
  refine ⟨rfl, fun h1 hf => f1 fun x hx => ?_⟩
  by_cases c1 : f.processed.length < if n < input.length then n + 1 else input.length + 1
  · rw [if_pos c1] at hx
    rw [List.eq_of_mem_replicate hx]; exact h1
  · rw [if_neg c1] at hx
    by_cases c2 : f.built = true
    · rw [if_pos c2] at hx
      rw [List.eq_of_mem_replicate hx]; exact h1
    · rw [if_neg c2] at hx
      exact hf x hx

theorem mulLoopS_ok (cells : List Int) (i : Nat) (v : Int) : ∀ w, mulLoopS lo hi cells i v = .ok w →
    queryLoop mulT cells i v = .ok w ∧ (Fits lo hi v → Fits lo hi w) := by
  induction i using Nat.strongRecOn generalizing v with
  | _ i ih =>
    intro w h
    unfold mulLoopS at h
    unfold queryLoop
    simp only at h ⊢
    split at h
    · next hc =>
      rw [dif_pos hc]
      obtain ⟨c, h1, h⟩ := Res.bind_eq_ok.1 h
      obtain ⟨x, hx, h⟩ := Res.bind_eq_ok.1 h
      obtain ⟨rfl, hfx⟩ := chk_eq hx
      rw [h1, Res.bind_ok]
      obtain ⟨e, hf⟩ := ih _ hc.2 _ _ h
      exact ⟨e, fun _ => hf hfx⟩
    · next hc =>
      rw [dif_neg hc]
      exact ⟨h, fun hv => by cases h; exact hv⟩

theorem mulPrefixS_ok {cells : List Int} (hc : CellsFit lo hi cells) {i : Nat} {w : Int} (h : mulPrefixS lo hi cells i = .ok w) :
    prefixQuery mulT cells i = .ok w ∧ Fits lo hi w := by
  unfold mulPrefixS at h
  unfold prefixQuery
  obtain ⟨v, h1, h⟩ := Res.bind_eq_ok.1 h
  rw [h1, Res.bind_ok]
  obtain ⟨e, hf⟩ := mulLoopS_ok _ _ _ _ h
  refine ⟨e, hf (hc v ?_)⟩
  unfold rd at h1
  split at h1
  · next h2 => cases h1; exact List.mem_of_getElem? h2
  · cases h1

theorem mulRangeS_bind (cells : List Int) (x y : Nat) : mulRangeS lo hi cells x y =
    (if x ≤ 1 then Res.ok 0 else mulPrefixS lo hi cells (x - 1)) >>= fun d => mulPrefixS lo hi cells y >>= fun v =>
      if d ≠ 0 then divS lo hi v d else .ok v := by
  unfold mulRangeS
  by_cases hx : x ≤ 1
  · simp only [if_pos hx]
  · simp only [if_neg hx]

theorem rangeQuery_bind (cells : List Int) (x y : Nat) : rangeQuery mulT cells x y =
    (if x ≤ 1 then Res.ok mulT.zero else prefixQuery mulT cells (x - 1)) >>= fun d => prefixQuery mulT cells y >>= fun v =>
      if mulT.truthy d then mulT.rev v d else .ok v := by
  unfold rangeQuery
  by_cases hx : x ≤ 1
  · simp only [if_pos hx]
  · simp only [if_neg hx]

theorem mulRangeS_ok {cells : List Int} (hc : CellsFit lo hi cells) {x y : Nat} {w : Int} (h : mulRangeS lo hi cells x y = .ok w) :
    rangeQuery mulT cells x y = .ok w ∧ Fits lo hi w := by
  rw [mulRangeS_bind] at h
  rw [rangeQuery_bind]
  obtain ⟨d, h1, h⟩ := Res.bind_eq_ok.1 h
  obtain ⟨v, h2, h⟩ := Res.bind_eq_ok.1 h
  obtain ⟨e2, f2⟩ := mulPrefixS_ok hc h2
  have e1 : (if x ≤ 1 then Res.ok mulT.zero else prefixQuery mulT cells (x - 1)) = .ok d := by
    by_cases hx : x ≤ 1
    · rw [if_pos hx] at h1 ⊢; exact h1
    · rw [if_neg hx] at h1 ⊢; exact (mulPrefixS_ok hc h1).1
  rw [e1, Res.bind_ok, e2, Res.bind_ok]
  have et : mulT.truthy d = decide (d ≠ 0) := rfl
  rw [et]
  by_cases hd : d = 0
  · rw [if_neg (by simpa using hd)] at h
    rw [if_neg (by simpa using hd)]
    cases h
    exact ⟨rfl, f2⟩
  · rw [if_pos hd, divS, if_neg hd] at h
    obtain ⟨rfl, hf⟩ := chk_eq h
    refine ⟨?_, hf⟩
    rw [if_pos (by simpa using hd)]
    change (if d = 0 then Res.ub else .ok (v.tdiv d)) = _
    rw [if_neg hd]

theorem mulLoopS_not_exc (cells : List Int) (i : Nat) (v : Int) (e : Exc) : mulLoopS lo hi cells i v ≠ .exc e := by
  induction i using Nat.strongRecOn generalizing v with
  | _ i ih =>
    intro h
    unfold mulLoopS at h
    simp only at h
    split at h
    · next hc =>
      unfold rd at h
      split at h
      · rw [Res.bind_ok] at h
        unfold chk at h
        split at h
        · rw [Res.bind_ok] at h; exact ih _ hc.2 _ h
        · cases h
      · cases h
    · cases h

theorem mulPrefixS_not_exc (cells : List Int) (i : Nat) (e : Exc) : mulPrefixS lo hi cells i ≠ .exc e := by
  intro h
  unfold mulPrefixS rd at h
  split at h
  · rw [Res.bind_ok] at h; exact mulLoopS_not_exc _ _ _ e h
  · cases h

theorem mulRangeS_not_exc (cells : List Int) (x y : Nat) (e : Exc) : mulRangeS lo hi cells x y ≠ .exc e := by
  intro h
  rw [mulRangeS_bind] at h
  have hd : ∀ e, (if x ≤ 1 then Res.ok 0 else mulPrefixS lo hi cells (x - 1)) ≠ .exc e := by
    intro e
    split
    · exact fun h => nomatch h
    · exact mulPrefixS_not_exc _ _ e
  cases h1 : (if x ≤ 1 then Res.ok 0 else mulPrefixS lo hi cells (x - 1)) with
  | ub => rw [h1] at h; cases h
  | exc e => exact hd e h1
  | ok d =>
    rw [h1, Res.bind_ok] at h
    cases h2 : mulPrefixS lo hi cells y with
    | ub => rw [h2] at h; cases h
    | exc e => exact mulPrefixS_not_exc _ _ e h2
    | ok v =>
      rw [h2, Res.bind_ok] at h
      split at h
      · unfold divS chk at h
        split at h
        · cases h
        · split at h <;> cases h
      · cases h

/-- If every query of a tree without zeros returns, then the products of all ranges fit. -/
theorem Reps.prodsFit_of_queryM {f : Tree Int} {a : List Int} (h : Reps mulT f a) (h1 : Fits lo hi 1) (hz : 0 ∉ a)
    (hc : CellsFit lo hi f.processed) (hq : ∀ x y, f.queryM lo hi x y ≠ .ub) : ProdsFit lo hi a := by
  obtain ⟨hb, hi'⟩ := h
  have hl := hi'.len
  have hW := hi'.lenW
  intro i j
  by_cases hij : min j a.length ≤ i
  · rw [List.drop_eq_nil_of_le (by rw [List.length_take]; omega)]
    exact h1
  · have hne := hq (i + 1) (min j a.length)
    unfold Tree.queryM at hne
    simp only [hb, Bool.not_true, Bool.false_eq_true, if_false] at hne
    rw [hl, length_last (by omega), show min (min (i + 1) (min j a.length)) a.length = i + 1 by omega,
      show min (max (i + 1) (min j a.length)) a.length = min j a.length by omega] at hne
    have hr := mul_rangeQuery hi' (i + 1) (min j a.length) (by omega) (by omega)
      (F_mul_ne_zero _ fun e he h0 => hz (h0 ▸ List.mem_of_mem_take he))
    have hnx := mulRangeS_not_exc (lo := lo) (hi := hi) f.processed (i + 1) (min j a.length)
    cases hm : Verif.Fenwick.mulRangeS lo hi f.processed (i + 1) (min j a.length) with
    | ub => exact absurd hm hne
    | exc e => exact absurd hm (hnx e)
    | ok w =>
      obtain ⟨e, hf⟩ := mulRangeS_ok hc hm
      rw [hr] at e
      cases e
      have et : a.take (min j a.length) = a.take j := List.take_eq_take_min.symm
      rw [Nat.add_sub_cancel, slice, et] at hf
      exact hf

/-- C206, the converse: a tree without zeros is built, and answers every query, without overflow exactly if the products of all
ranges of its elements fit. -/
theorem C206_exact (h1 : Fits lo hi 1) (input : List Int) (n : Nat) (hW : min n input.length + 1 ≤ W) (hz : 0 ∉ input.take n) :
    (∃ f, Tree.empty.buildM lo hi input n = .ok f ∧ ∀ x y, f.queryM lo hi x y ≠ .ub) ↔ ProdsFit lo hi (input.take n) := by
  have hr := build_reps mulT_lawful Tree.empty input n (.inr ⟨rfl, rfl⟩) hW
  constructor
  · rintro ⟨f, hf, hq⟩
    obtain ⟨rfl, hc⟩ := buildM_ok hf
    exact hr.prodsFit_of_queryM h1 hz (hc h1 fun _ h => nomatch h) hq
  · intro hp
    refine ⟨_, buildM_eq (.inr ⟨rfl, rfl⟩) hW hp, fun x y h => ?_⟩
    rw [hr.queryM hp] at h
    cases h

/-- C206, the converse for updates: after any history the cells of which fit, a multiplication of an element by `v ≠ 0` and all
queries after it return exactly if the products of all ranges of the new elements fit. -/
theorem C206_update_exact {f : Tree Int} {a : List Int} (ha : MulHist f a) (h1 : Fits lo hi 1) (hc : CellsFit lo hi f.processed)
    (p : Nat) (v : Int) (hz : 0 ∉ elems a (.update p v)) :
    (∃ f' b, f.updateM lo hi p v = .ok (f', b) ∧ ∀ x y, f'.queryM lo hi x y ≠ .ub) ↔ ProdsFit lo hi (elems a (.update p v)) := by
  have hu : ∃ f' b, f.update mulT p v = .ok (f', b) := by
    unfold Tree.update
    rw [ha.reps.1]
    simp only [Bool.not_true, Bool.false_eq_true, if_false]
    split <;> exact ⟨_, _, rfl⟩
  obtain ⟨g, b, hg⟩ := hu
  have hr : Reps mulT g (elems a (.update p v)) := (MulHist.update p v ha hg).reps
  constructor
  · rintro ⟨f', b', hf, hq⟩
    have hok : f' = g ∧ CellsFit lo hi f'.processed := by
      unfold Tree.updateM at hf
      unfold Tree.update at hg
      have e : mulT.truthy v = decide (v ≠ 0) := rfl
      rw [ha.reps.1, e] at hg
      rw [ha.reps.1] at hf
      simp only [Bool.not_true, Bool.false_eq_true, if_false] at hf hg
      split at hf
      · next hcond =>
        rw [if_pos hcond] at hg
        obtain ⟨c, hcx, hf⟩ := Res.bind_eq_ok.1 hf
        obtain ⟨rfl, hcf⟩ := mulCellsS_ok _ _ _ _ hcx
        cases hf
        cases hg
        exact ⟨rfl, hcf hc⟩
      · next hcond =>
        rw [if_neg hcond] at hg
        cases hf
        cases hg
        exact ⟨rfl, hc⟩
    obtain ⟨rfl, hcf⟩ := hok
    exact hr.prodsFit_of_queryM h1 hz hcf hq
  · intro hp
    refine ⟨g, b, ?_, fun x y h => ?_⟩
    · rw [ha.reps.updateM hp]; exact hg
    · rw [hr.queryM hp] at h
      cases h

/-- The tree is built, and the query of the two elements whose product does not fit overflows; after an update the query of a
single element does, because the product of those before it does. -/
example : (do let f ← Tree.empty.buildM intMin intMax [1, 65536, 65536] 3; f.queryM intMin intMax 3 1) = .ub := by decide +kernel
example : (do let f ← Tree.empty.buildM intMin intMax [1, 65536, 65535] 3; f.queryM intMin intMax 1 2) = .ok 65536 := by
  decide +kernel
example : (do let f ← Tree.empty.buildM intMin intMax [1, 32768, 32768] 3; let (f, _) ← f.updateM intMin intMax 3 2
              f.queryM intMin intMax 3 3) = .ub := by
  decide +kernel
/-- After a zero the converse fails: no call overflows, the product of the last two elements does not fit. -/
example : (do let f ← Tree.empty.buildM intMin intMax [0, 65536, 65536] 3
              runM intMin intMax f [.query 1 1, .query 1 2, .query 1 3, .query 2 2, .query 2 3, .query 3 3])
    = .ok [0, 0, 0, 0, 0, 0] := by
  decide +kernel

example : ¬ C206_statement intMin intMax := C206_counterexample (by decide) (by decide)

/-- A history with products close to the limits of `int`; the query of `INT_MIN` divides it by 1. -/
example : (do let f ← Tree.empty.buildM intMin intMax [1, -65536, 32768] 9
              runM intMin intMax f [.query 2 3, .query 3 3, .resize 3, .update 2 (-32767), .query 1 2,
                .rebuild [46341, 46340, 0, 5] 2, .query 1 2, .rebuild [3, 4] 2, .setValue 1 (-9), .query 1 2])
    = .ok [-2147483648, 32768, 2147418112, 2147441940, -36] := by
  decide +kernel

/-- A product that does not fit overflows while the tree is built. -/
example : (do let f ← Tree.empty.buildM intMin intMax [46341, 46341] 2; runM intMin intMax f [.query 2 2]) = .ub := by decide +kernel

end Verif.Fenwick
