import Verif.Signed
import Verif.Fenwick.Refine
import Mathlib.Algebra.Group.Int.Defs
import Mathlib.Algebra.BigOperators.Group.List.Basic

/-!
The Fenwick tree of sums over a signed integer type with the values `lo … hi` (structures/fenwick_tree.h, `T = int`,
`transform_t = sum_t<int>`): an addition or subtraction whose result does not fit is undefined.
-/

namespace Verif.Fenwick
open Spec (Op Val put)

variable (lo hi : Int)

/-- structures/fenwick_tree.h:264-271 `_update`. -/
def updateCellsS (cells : List Int) (position : Nat) (value : Int) : Res (List Int) :=
  if h : 0 < position ∧ position < cells.length ∧ position < W then do
    let x ← chk lo hi (cells[position]'h.2.1 + value)
    updateCellsS (cells.set position x) (nextUpdate position) value
  else .ok cells
termination_by if position = 0 then 0 else cells.length - position
decreasing_by
  have := nextUpdate_cases position h.1 h.2.2
  simp only [List.length_set]
  split <;> split <;> omega

/-- structures/fenwick_tree.h:284-286, the loop of `_range_query(position)`. -/
def queryLoopS (cells : List Int) (index : Nat) (value : Int) : Res Int :=
  let next := nextQuery index
  if h : 0 < next ∧ next < index then do
    let c ← rd cells next
    let v ← chk lo hi (c + value)
    queryLoopS cells next v
  else .ok value
termination_by index
decreasing_by exact h.2

/-- structures/fenwick_tree.h:279-288 `_range_query(position)`. -/
def prefixQueryS (cells : List Int) (position : Nat) : Res Int := do
  let v ← rd cells position
  queryLoopS lo hi cells position v

/-- structures/fenwick_tree.h:314-321 `_range_query(start, end)`. -/
def rangeQueryS (cells : List Int) (start stop : Nat) : Res Int := do
  let discarded ← if start ≤ 1 then .ok 0 else prefixQueryS lo hi cells (start - 1)
  let value ← prefixQueryS lo hi cells stop
  if discarded ≠ 0 then chk lo hi (value - discarded) else .ok value

/-- structures/fenwick_tree.h:251-253, the loop of `_build`. -/
def buildLoopS (cells : List Int) (ii : Nat) : List Int → Res (List Int)
  | [] => .ok cells
  | x :: rest => do
    let cells ← updateCellsS lo hi cells ii x
    buildLoopS cells (ii + 1) rest

/-- structures/fenwick_tree.h:236-256 `_build`. -/
def Tree.buildS (f : Tree Int) (input : List Int) (numberOfElements : Nat) : Res (Tree Int) :=
  let size := if numberOfElements < input.length then numberOfElements + 1 else input.length + 1
  let cells :=
    if f.processed.length < size then List.replicate size 0
    else if f.built then List.replicate size 0
    else f.processed
  do
    let cells ← buildLoopS lo hi cells 1 (input.take (size - 1))
    .ok ⟨cells, true⟩

/-- structures/fenwick_tree.h:89-99 `update`. -/
def Tree.updateS (f : Tree Int) (position : Nat) (value : Int) : Res (Tree Int × Bool) :=
  if !f.built then .exc .notBuilt
  else
    let ok := decide (position < f.processed.length)
    if ok && decide (value ≠ 0) then do
      let cells ← updateCellsS lo hi f.processed position value
      .ok ({ f with processed := cells }, ok)
    else .ok (f, ok)

/-- structures/fenwick_tree.h:166-172 `query`. -/
def Tree.queryS (f : Tree Int) (start stop : Nat) : Res Int :=
  if !f.built then .exc .notBuilt
  else
    let last := (f.processed.length + (W - 1)) % W
    rangeQueryS lo hi f.processed (min (min start stop) last) (min (max start stop) last)

/-- structures/fenwick_tree.h:183-196 `set_value`. -/
def Tree.setValueS (f : Tree Int) (position : Nat) (value : Int) : Res (Tree Int × Bool) :=
  if !f.built then .exc .notBuilt
  else
    let ok := decide (position < f.processed.length) && decide (0 < position)
    if ok then do
      let cur ← rangeQueryS lo hi f.processed position position
      let diff ← chk lo hi (value - cur)
      if diff ≠ 0 then do
        let cells ← updateCellsS lo hi f.processed position diff
        .ok ({ f with processed := cells }, ok)
      else .ok (f, ok)
    else .ok (f, ok)

/-- One call on object `i` of a family of trees. -/
def stepS (σ : Store Int) : Op Int → Store Int × Res (Val Int)
  | .rebuild i input n =>
    match (σ i).buildS lo hi input n with
    | .ok f => (put σ i f, .ok .unit)
    | .exc e => (σ, .exc e)
    | .ub => (σ, .ub)
  | .update i p v =>
    match (σ i).updateS lo hi p v with
    | .ok (f, b) => (put σ i f, .ok (.bool b))
    | .exc e => (σ, .exc e)
    | .ub => (σ, .ub)
  | .setValue i p v =>
    match (σ i).setValueS lo hi p v with
    | .ok (f, b) => (put σ i f, .ok (.bool b))
    | .exc e => (σ, .exc e)
    | .ub => (σ, .ub)
  | .query i x y => (σ, Val.value <$> (σ i).queryS lo hi x y)
  | .resize i k => (put σ i ((σ i).resize k), .ok .unit)
  | .copy dst src => (put σ dst (σ src), .ok .unit)
  | .move dst src => (put (put σ dst (σ src).moveFrom.1) src (σ src).moveFrom.2, .ok .unit)

def runS (σ : Store Int) : List (Op Int) → Store Int × List (Res (Val Int))
  | [] => (σ, [])
  | o :: os =>
    let (σ', r) := stepS lo hi σ o
    let (σ'', rs) := runS σ' os
    (σ'', r :: rs)

/-! ### Specification -/

namespace Spec

/-- Every sum of neighbouring elements fits. -/
def SumsFit (lo hi : Int) (a : List Int) : Prop := ∀ x y, Fits lo hi (rangeSum a x y)

/-- Every sum of neighbouring elements of every object fits. -/
def StoreFits (lo hi : Int) (σ : Store Int) : Prop := ∀ i a, σ i = some a → SumsFit lo hi a

/-- The sums fit before and after every call of a history. -/
def RunFits (lo hi : Int) (σ : Store Int) : List (Op Int) → Prop
  | [] => StoreFits lo hi σ
  | o :: os => StoreFits lo hi σ ∧ RunFits lo hi (step σ o).1 os

/-- `set_value` replaces an element by one whose distance fits. -/
def Near (lo hi : Int) (σ : Store Int) : Op Int → Prop
  | .setValue i p v => ∀ a x, σ i = some a → 1 ≤ p → a[p - 1]? = some x → Fits lo hi (v - x)
  | _ => True

/-- Every `set_value` of a history does. -/
def RunNear (lo hi : Int) (σ : Store Int) : List (Op Int) → Prop
  | [] => True
  | o :: os => Near lo hi σ o ∧ RunNear lo hi (step σ o).1 os

end Spec

open Spec

variable {lo hi}

/-! ### No call overflows -/

theorem SumsFit.slice {a : List Int} (h : SumsFit lo hi a) (i j : Nat) : Fits lo hi (slice a i j).sum := by
  have h0 := h (i + 1) (max (i + 1) j)
  unfold rangeSum addressed positions at h0
  unfold Verif.Fenwick.slice
  by_cases hij : j ≤ i
  · have e : (a.take j).drop i = [] := by rw [List.drop_eq_nil_iff, List.length_take]; omega
    rw [e]
    have h1 := h 0 0
    have e : rangeSum a 0 0 = 0 := by simp [rangeSum, addressed, positions]
    rw [e] at h1
    exact h1
  · have e1 : max 1 (min (min (i + 1) (max (i + 1) j)) a.length) - 1 = min i (a.length - 1) := by omega
    have e2 : min (max (i + 1) (max (i + 1) j)) a.length = min j a.length := by omega
    rw [e1, e2] at h0
    have e3 : a.take (min j a.length) = a.take j := List.take_eq_take_min.symm
    rw [e3] at h0
    by_cases hi' : i ≤ a.length - 1
    · rw [Nat.min_eq_left hi'] at h0
      exact h0
    · have e : (a.take j).drop i = [] := by rw [List.drop_eq_nil_iff, List.length_take]; omega
      rw [e]
      have h1 := h 0 0
      have e : rangeSum a 0 0 = 0 := by simp [rangeSum, addressed, positions]
      rw [e] at h1
      exact h1

theorem SumsFit.zero {a : List Int} (h : SumsFit lo hi a) : Fits lo hi 0 := by
  have := SumsFit.slice h 0 0
  simpa [Verif.Fenwick.slice] using this

theorem updateCellsS_eq {cells : List Int} {p : Nat} {v : Int} (hW : cells.length ≤ W)
    (hall : ∀ i x, i ≠ 0 → (updateCells (sumT Int) cells p v)[i]? = some x → Fits lo hi x) :
    updateCellsS lo hi cells p v = .ok (updateCells (sumT Int) cells p v) := by
  fun_induction updateCells (sumT Int) cells p v with
  | case1 cells p h ih =>
    have hx : (updateCells (sumT Int) (cells.set p ((sumT Int).op cells[p] v)) (nextUpdate p) v)[p]? = some (cells[p] + v) := by
      obtain ⟨h0, h1, h2⟩ := h
      rcases nextUpdate_cases p h0 h2 with ⟨e, hgt⟩ | ⟨e, he⟩
      · rw [updateCells_get _ _ _ _ (by omega) (by simpa using hW), if_neg (by omega), List.getElem?_set_self h1]
        rfl
      · rw [e, updateCells_zero, List.getElem?_set_self h1]
        rfl
    unfold updateCellsS
    rw [dif_pos h, chk_ok (hall p _ (by omega) hx)]
    exact ih (by simpa using hW) hall
  | case2 cells p h =>
    unfold updateCellsS
    rw [dif_neg h]

/-- The cells of a tree are sums of neighbouring elements. -/
theorem Inv.fits {cells a : List Int} (h : Inv (sumT Int) cells a) (hf : SumsFit lo hi a) (i : Nat) (x : Int) (h0 : i ≠ 0)
    (hx : cells[i]? = some x) : Fits lo hi x := by
  have hl : i < cells.length := (List.getElem?_eq_some_iff.1 hx).1
  rw [h.cell i (by omega) (by have := h.len; omega)] at hx
  cases hx
  exact SumsFit.slice hf _ _

theorem Inv.updateS {cells a : List Int} (h : Inv (sumT Int) cells a) {p : Nat} {v : Int} (h1 : 1 ≤ p) (h2 : p ≤ a.length)
    (hf : SumsFit lo hi (a.modify (p - 1) (· + v))) :
    updateCellsS lo hi cells p v = .ok (updateCells (sumT Int) cells p v) := by
  have hu := h.update sumT_lawful p v h1 h2
  exact updateCellsS_eq h.lenW fun i x h0 hx => hu.fits hf i x h0 hx

theorem Inv.queryLoopS {cells a : List Int} (h : Inv (sumT Int) cells a) (hf : SumsFit lo hi a) (j : Nat) (i : Nat) (hi' : i ≤ a.length)
    (hj : i ≤ j) :
    Verif.Fenwick.queryLoopS lo hi cells i (Verif.Fenwick.slice a (i - low i) j).sum = Verif.Fenwick.queryLoop (sumT Int) cells i (Verif.Fenwick.slice a (i - low i) j).sum := by
  induction i using Nat.strongRecOn with
  | _ i ih =>
    have hiW : i < W := by have := h.len; have := h.lenW; omega
    have e : nextQuery i = i - low i := by unfold nextQuery; rw [lsb_eq_low i hiW]
    unfold Verif.Fenwick.queryLoopS Verif.Fenwick.queryLoop
    simp only [e]
    split
    · next hc =>
      rw [h.get (i - low i) (by omega)]
      simp only [Res.bind_ok]
      have hs : F (sumT Int) (Verif.Fenwick.slice a (i - low i - low (i - low i)) (i - low i)) + (Verif.Fenwick.slice a (i - low i) j).sum =
          (Verif.Fenwick.slice a (i - low i - low (i - low i)) j).sum := by
        rw [F_sum, ← List.sum_append, slice_append (by omega) (by omega)]
      have hs' : (sumT Int).op (F (sumT Int) (Verif.Fenwick.slice a (i - low i - low (i - low i)) (i - low i))) (Verif.Fenwick.slice a (i - low i) j).sum =
          (Verif.Fenwick.slice a (i - low i - low (i - low i)) j).sum := hs
      rw [hs, hs', chk_ok (SumsFit.slice hf _ _)]
      exact ih (i - low i) (by omega) (by omega) (by omega)
    · rfl

theorem Inv.prefixQueryS {cells a : List Int} (h : Inv (sumT Int) cells a) (hf : SumsFit lo hi a) {i : Nat} (hi' : i ≤ a.length) :
    Verif.Fenwick.prefixQueryS lo hi cells i = Verif.Fenwick.prefixQuery (sumT Int) cells i := by
  unfold Verif.Fenwick.prefixQueryS Verif.Fenwick.prefixQuery
  rw [h.get i hi']
  exact h.queryLoopS hf i i hi' (Nat.le_refl _)

theorem Inv.rangeQueryS {cells a : List Int} (h : Inv (sumT Int) cells a) (hf : SumsFit lo hi a) {x y : Nat} (h1 : x ≤ y) (h2 : y ≤ a.length) :
    Verif.Fenwick.rangeQueryS lo hi cells x y = Verif.Fenwick.rangeQuery (sumT Int) cells x y := by
  have hr := sum_rangeQuery h x y h1 h2
  unfold Verif.Fenwick.rangeQuery at hr ⊢
  unfold Verif.Fenwick.rangeQueryS
  have key : ∀ d v : Int, (if (sumT Int).truthy d = true then (sumT Int).rev v d else .ok v) = .ok (Verif.Fenwick.slice a (x - 1) y).sum →
      (if d ≠ 0 then chk lo hi (v - d) else .ok v) = (if (sumT Int).truthy d = true then (sumT Int).rev v d else .ok v) := by
    intro d v hr
    by_cases hd0 : d = 0
    · subst hd0
      rfl
    · have ht : (sumT Int).truthy d = true := by simpa [sumT] using hd0
      rw [if_pos ht] at hr ⊢
      rw [if_pos hd0]
      have e : v - d = (Verif.Fenwick.slice a (x - 1) y).sum := by
        change Res.ok (v - d) = _ at hr
        injection hr
      rw [e, chk_ok (SumsFit.slice hf _ _), hr]
  rw [h.prefixQueryS hf h2, h.prefixQuery sumT_lawful y h2]
  rw [h.prefixQuery sumT_lawful y h2] at hr
  by_cases hx : x ≤ 1
  · rw [if_pos hx] at hr ⊢
    rw [if_pos hx]
    simp only [Res.bind_ok] at hr ⊢
    exact key _ _ hr
  · rw [if_neg hx, h.prefixQuery sumT_lawful _ (by omega)] at hr
    rw [if_neg hx, if_neg hx, h.prefixQueryS hf (by omega), h.prefixQuery sumT_lawful _ (by omega)]
    simp only [Res.bind_ok] at hr ⊢
    exact key _ _ hr

theorem Inv.buildLoopS (rest : List Int) : ∀ (cells done : List Int), SumsFit lo hi (done ++ rest) →
    Inv (sumT Int) cells (done ++ List.replicate rest.length 0) →
    Verif.Fenwick.buildLoopS lo hi cells (done.length + 1) rest = .ok (Verif.Fenwick.buildLoop (sumT Int) cells (done.length + 1) rest) := by
  induction rest with
  | nil => intro cells done _ h; rfl
  | cons x rest ih =>
    intro cells done hf h
    have e : (done ++ List.replicate (x :: rest).length (0 : Int)).modify (done.length + 1 - 1) (· + x)
        = (done ++ [x]) ++ List.replicate rest.length 0 := by
      simp only [List.length_cons, List.replicate_succ, Nat.add_sub_cancel]
      rw [modify_append_mid]
      simp
    have hu := h.update sumT_lawful (done.length + 1) x (by omega) (by simp)
    have e' : (done ++ List.replicate (x :: rest).length (0 : Int)).modify (done.length + 1 - 1) (fun y => (sumT Int).op y x)
        = (done ++ [x]) ++ List.replicate rest.length 0 := e
    rw [e'] at hu
    have hz : ∀ n, SumsFit lo hi ((done ++ [x]) ++ List.replicate n 0) := by
      intro n i j
      have : ∃ i' j', rangeSum (done ++ [x] ++ List.replicate n 0) i j = (Verif.Fenwick.slice (done ++ x :: rest) i' j').sum := by
        refine ⟨max 1 (min (min i j) (done ++ [x] ++ List.replicate n 0).length) - 1,
          min (min (max i j) (done ++ [x] ++ List.replicate n 0).length) (done.length + 1), ?_⟩
        unfold rangeSum addressed positions Verif.Fenwick.slice
        generalize max 1 (min (min i j) (done ++ [x] ++ List.replicate n 0).length) - 1 = u
        generalize min (max i j) (done ++ [x] ++ List.replicate n 0).length = w
        have e1 : (done ++ x :: rest).take (min w (done.length + 1)) = (done ++ [x]).take w := by
          have : done ++ x :: rest = (done ++ [x]) ++ rest := by simp
          rw [this, List.take_append_of_le_length (by simp; omega)]
          have := (List.take_eq_take_min (l := done ++ [x]) (i := w)).symm
          simpa using this
        rw [e1, List.take_append, List.drop_append, List.sum_append, List.take_replicate, List.drop_replicate, List.sum_replicate]
        simp
      obtain ⟨i', j', e⟩ := this
      rw [e]
      exact SumsFit.slice hf _ _
    unfold Verif.Fenwick.buildLoopS Verif.Fenwick.buildLoop
    rw [h.updateS (by omega) (by simp) (by rw [e]; exact hz _), Res.bind_ok]
    have := ih (updateCells (sumT Int) cells (done.length + 1) x) (done ++ [x]) (by simpa using hf) hu
    simpa using this

theorem buildS_eq {f : Tree Int} (hb : f.built = true ∨ Unbuilt f) {input : List Int} {n : Nat} (hW : min n input.length + 1 ≤ W)
    (hf : SumsFit lo hi (input.take n)) : f.buildS lo hi input n = .ok (f.build (sumT Int) input n) := by
  unfold Tree.build Tree.buildS
  have hsize : (if n < input.length then n + 1 else input.length + 1) = min n input.length + 1 := by
    split <;> omega
  simp only [hsize, Nat.add_sub_cancel]
  have hc : ∀ t : Int, (if f.processed.length < min n input.length + 1 then List.replicate (min n input.length + 1) t
      else if f.built = true then List.replicate (min n input.length + 1) t else f.processed) =
      List.replicate (min n input.length + 1) t := by
    intro t
    rcases hb with hb | ⟨hb, hp⟩
    · simp [hb]
    · simp [hp]
  rw [hc, hc]
  have h0 := Inv.init (sumT_lawful (T := Int)) (min n input.length) hW
  have e : input.take (min n input.length) = input.take n := List.take_eq_take_min.symm
  rw [e]
  have := Inv.buildLoopS (lo := lo) (hi := hi) (input.take n) (List.replicate (min n input.length + 1) 0) [] (by simpa using hf)
    (by rw [List.nil_append, List.length_take]; exact h0)
  have e2 : Verif.Fenwick.buildLoopS lo hi (List.replicate (min n input.length + 1) 0) 1 (input.take n) =
      .ok (Verif.Fenwick.buildLoop (sumT Int) (List.replicate (min n input.length + 1) 0) 1 (input.take n)) := by simpa using this
  rw [e2]
  rfl

theorem Reps.updateS {f : Tree Int} {a : List Int} (h : Reps (sumT Int) f a) {p : Nat} {v : Int}
    (hf : SumsFit lo hi (if 1 ≤ p ∧ p ≤ a.length then a.modify (p - 1) (· + v) else a)) :
    f.updateS lo hi p v = f.update (sumT Int) p v := by
  obtain ⟨hb, hi'⟩ := h
  have hl := hi'.len
  unfold Tree.updateS Tree.update
  simp only [hb, Bool.not_true, Bool.false_eq_true, if_false]
  have e : (sumT Int).truthy v = decide (v ≠ 0) := rfl
  rw [e]
  split
  · next hc =>
    simp only [Bool.and_eq_true, decide_eq_true_eq] at hc
    by_cases hp : 1 ≤ p
    · rw [if_pos ⟨hp, by omega⟩] at hf
      rw [hi'.updateS hp (by omega) hf]
      rfl
    · have : p = 0 := by omega
      subst this
      rw [updateCells_zero]
      unfold updateCellsS
      rw [dif_neg (by omega)]
      rfl
  · rfl

theorem Reps.queryS {f : Tree Int} {a : List Int} (h : Reps (sumT Int) f a) (hf : SumsFit lo hi a) (x y : Nat) :
    f.queryS lo hi x y = f.query (sumT Int) x y := by
  obtain ⟨hb, hi'⟩ := h
  have hl := hi'.len
  have hW := hi'.lenW
  unfold Tree.queryS Tree.query
  simp only [hb, Bool.not_true, Bool.false_eq_true, if_false]
  rw [hl, length_last (by omega), hi'.rangeQueryS hf (by omega) (by omega)]

open Classical in
/-- `set_value` overflows exactly if the distance of the elements does not fit. -/
theorem Reps.setValueS {f : Tree Int} {a : List Int} (h : Reps (sumT Int) f a) (hf : SumsFit lo hi a) {p : Nat} {v : Int}
    (hf' : SumsFit lo hi (if 1 ≤ p ∧ p ≤ a.length then a.set (p - 1) v else a)) :
    f.setValueS lo hi p v =
      if ∀ x, 1 ≤ p → a[p - 1]? = some x → Fits lo hi (v - x) then f.setValue (sumT Int) p v else .ub := by
  obtain ⟨hb, hi'⟩ := h
  have hl := hi'.len
  unfold Tree.setValueS Tree.setValue
  simp only [hb, Bool.not_true, Bool.false_eq_true, if_false]
  have e : (decide (p < f.processed.length) && decide (0 < p)) = decide (1 ≤ p ∧ p ≤ a.length) := by
    rw [hl, ← Bool.decide_and]; congr 1; rw [eq_iff_iff]; omega
  rw [e]
  by_cases hc : 1 ≤ p ∧ p ≤ a.length
  · rw [hi'.rangeQueryS hf (Nat.le_refl p) hc.2, sum_rangeQuery hi' p p (by omega) hc.2, slice_single a p hc.1 hc.2]
    rw [if_pos hc] at hf'
    have hm := modify_add_sub a (p - 1) (by omega) v
    have hg : a[p - 1]? = some (a[p - 1]'(by omega)) := List.getElem?_eq_getElem _
    simp only [decide_eq_true hc, if_true, Res.bind_ok, List.sum_singleton]
    by_cases hn : Fits lo hi (v - a[p - 1]'(by omega))
    · rw [chk_ok hn, if_pos (fun x _ hx => by rw [hg] at hx; cases hx; exact hn)]
      change (if v - a[p - 1]'(by omega) ≠ 0 then _ else _) = (if decide (v - a[p - 1]'(by omega) ≠ 0) = true then _ else _)
      by_cases h0 : v - a[p - 1]'(by omega) = 0
      · rw [if_neg (by simpa using h0), if_neg (by simpa using h0)]
      · rw [if_pos h0, if_pos (by simpa using h0), hi'.updateS hc.1 hc.2 (by rw [hm]; exact hf')]
        rfl
    · rw [chk_ub hn, if_neg (fun hx => hn (hx _ hc.1 hg))]
      rfl
  · simp only [decide_eq_false hc, Bool.false_eq_true, if_false]
    rw [if_pos]
    intro x h1 hx
    have := (List.getElem?_eq_some_iff.1 hx).1
    omega

theorem stepS_eq {σ : Store Int} {τ : Spec.Store Int} (h : ∀ i, Rel (σ i) (τ i)) (hf : StoreFits lo hi τ) {o : Op Int} (ho : o.Valid)
    (hf' : StoreFits lo hi (Spec.step τ o).1) (hn : Near lo hi τ o) : stepS lo hi σ o = step (sumT Int) σ o := by
  cases o with
  | rebuild i input n =>
    have h0 := hf' i (input.take n) (by simp [Spec.step, put])
    simp only [stepS, step]
    rw [buildS_eq (h i).built ho h0]
  | update i p v =>
    have hi' := h i
    simp only [stepS, step]
    cases hτ : τ i with
    | none =>
      rw [hτ] at hi'
      simp only [Tree.updateS, Tree.update, hi'.1, Bool.not_false, if_true]
    | some a =>
      rw [hτ] at hi'
      rw [Reps.updateS hi' (hf' i _ (by simp [Spec.step, put, hτ]))]
      rcases (σ i).update (sumT Int) p v with ⟨_, _⟩ | _ | _ <;> rfl
  | setValue i p v =>
    have hi' := h i
    simp only [stepS, step]
    cases hτ : τ i with
    | none =>
      rw [hτ] at hi'
      simp only [Tree.setValueS, Tree.setValue, hi'.1, Bool.not_false, if_true]
    | some a =>
      rw [hτ] at hi'
      rw [Reps.setValueS hi' (hf i a hτ) (hf' i _ (by simp [Spec.step, put, hτ])), if_pos (fun x h1 hx => hn a x hτ h1 hx)]
      rcases (σ i).setValue (sumT Int) p v with ⟨_, _⟩ | _ | _ <;> rfl
  | query i x y =>
    have hi' := h i
    simp only [stepS, step]
    cases hτ : τ i with
    | none =>
      rw [hτ] at hi'
      simp only [Tree.queryS, Tree.query, hi'.1, Bool.not_false, if_true]
    | some a =>
      rw [hτ] at hi'
      rw [Reps.queryS hi' (hf i a hτ)]
  | resize i k => rfl
  | copy dst src => rfl
  | move dst src => rfl

theorem RunFits.now {τ : Spec.Store Int} {ops : List (Op Int)} (h : RunFits lo hi τ ops) : StoreFits lo hi τ := by
  cases ops with
  | nil => exact h
  | cons => exact h.1

theorem runS_eq (ops : List (Op Int)) : ∀ {σ : Store Int} {τ : Spec.Store Int}, (∀ i, Rel (σ i) (τ i)) → (∀ o ∈ ops, o.Valid) →
    RunFits lo hi τ ops → RunNear lo hi τ ops → runS lo hi σ ops = run (sumT Int) σ ops := by
  induction ops with
  | nil => exact fun _ _ _ _ => rfl
  | cons o os ih =>
    intro σ τ h hv hf hn
    have e := stepS_eq h hf.1 (hv o (by simp)) (RunFits.now hf.2) hn.1
    have h' := (step_refines σ τ h o (hv o (by simp))).2
    simp only [runS, run, e]
    rw [ih h' (fun o' ho' => hv o' (by simp [ho'])) hf.2 hn.2]

/-! ### C142 -/

/-- C142 in full: as long as all sums of neighbouring elements fit the type, no call overflows and the results are those of plain
lists. -/
def C142_statement (lo hi : Int) : Prop :=
  ∀ ops : List (Op Int), (∀ o ∈ ops, o.Valid) → RunFits lo hi (fun _ => none) ops →
    (runS lo hi Store.init ops).2 = (Spec.run (fun _ => none) ops).2

/-- C142, the part that holds: no call overflows if in addition the new value of every `set_value` and the old one have a distance
that fits.  Missing: `set_value` with a distance that does not fit. -/
theorem C142_signed_partial (ops : List (Op Int)) (hv : ∀ o ∈ ops, o.Valid) (hf : RunFits lo hi (fun _ => none) ops)
    (hn : RunNear lo hi (fun _ => none) ops) :
    (runS lo hi Store.init ops).2 = (Spec.run (fun _ => none) ops).2 := by
  rw [runS_eq ops init_rel hv hf hn]
  exact (run_refines ops Store.init (fun _ => none) init_rel hv).1

/-- C142, exactly: when the sums fit before and after it, `set_value` overflows if and only if the distance of the two values does
not fit. -/
theorem C142_set_value_exact {f : Tree Int} {a : List Int} (ha : Reps (sumT Int) f a)
    (hs : SumsFit lo hi a) {p : Nat} {v x : Int} (hp : 1 ≤ p) (hx : a[p - 1]? = some x) (hs' : SumsFit lo hi (a.set (p - 1) v)) :
    f.setValueS lo hi p v = .ub ↔ ¬ Fits lo hi (v - x) := by
  have hl := (List.getElem?_eq_some_iff.1 hx).1
  have h := Reps.setValueS ha hs (p := p) (v := v) (by rw [if_pos ⟨hp, by omega⟩]; exact hs')
  rw [h]
  constructor
  · intro e hfit
    rw [if_pos (fun y _ hy => by rw [hx] at hy; cases hy; exact hfit)] at e
    obtain ⟨f', e', _⟩ := Reps.setValue ha p v
    rw [e'] at e
    cases e
  · intro hfit
    rw [if_neg (fun h' => hfit (h' x hp hx))]

/-! ### The converse: which sums must fit -/

/-- Every cell holds a value of the type. -/
abbrev CellsIn (lo hi : Int) (cells : List Int) : Prop := ∀ x ∈ cells, Fits lo hi x

/-- An update that returns computes what it computes without bounds, and its cells fit. -/
theorem updateCellsS_ok (cells : List Int) (p : Nat) (v : Int) : ∀ c, updateCellsS lo hi cells p v = .ok c →
    c = updateCells (sumT Int) cells p v ∧ (CellsIn lo hi cells → CellsIn lo hi c) := by
  fun_induction updateCells (sumT Int) cells p v with
  | case1 cells p h ih =>
    intro c hc
    unfold updateCellsS at hc
    rw [dif_pos h] at hc
    obtain ⟨x, hx, hc⟩ := Res.bind_eq_ok.1 hc
    obtain ⟨rfl, hfx⟩ := chk_eq hx
    obtain ⟨e, hfit⟩ := ih c hc
    refine ⟨e, fun hcells => hfit fun y hy => ?_⟩
    rcases List.mem_or_eq_of_mem_set hy with h | rfl
    · exact hcells y h
    · exact hfx
  | case2 cells p h =>
    intro c hc
    unfold updateCellsS at hc
    rw [dif_neg h] at hc
    cases hc
    exact ⟨rfl, id⟩

theorem buildLoopS_ok (rest : List Int) : ∀ (cells : List Int) (ii : Nat) (c : List Int), buildLoopS lo hi cells ii rest = .ok c →
    c = buildLoop (sumT Int) cells ii rest ∧ (CellsIn lo hi cells → CellsIn lo hi c) := by
  induction rest with
  | nil => intro cells ii c h; cases h; exact ⟨rfl, id⟩
  | cons x rest ih =>
    intro cells ii c h
    obtain ⟨c1, h1, h2⟩ := Res.bind_eq_ok.1 h
    obtain ⟨rfl, f1⟩ := updateCellsS_ok _ _ _ _ h1
    obtain ⟨rfl, f2⟩ := ih _ _ _ h2
    exact ⟨rfl, fun h => f2 (f1 h)⟩

theorem buildS_ok {f g : Tree Int} {input : List Int} {n : Nat} (h : f.buildS lo hi input n = .ok g) :
    g = f.build (sumT Int) input n ∧ (Fits lo hi 0 → CellsIn lo hi f.processed → CellsIn lo hi g.processed) := by
  unfold Tree.buildS at h
  obtain ⟨c, h1, h2⟩ := Res.bind_eq_ok.1 h
  obtain ⟨rfl, f1⟩ := buildLoopS_ok _ _ _ _ h1
  cases h2
  refine ⟨rfl, fun h1 hf => f1 fun x hx => ?_⟩
  by_cases c1 : f.processed.length < if n < input.length then n + 1 else input.length + 1
  · rw [if_pos c1] at hx
    rw [List.eq_of_mem_replicate hx]; exact h1
  · rw [if_neg c1] at hx
    by_cases c2 : f.built = true
    · rw [if_pos c2] at hx
      rw [List.eq_of_mem_replicate hx]; exact h1
    · rw [if_neg c2] at hx
      exact hf x hx

theorem queryLoopS_ok (cells : List Int) (i : Nat) (v : Int) : ∀ w, queryLoopS lo hi cells i v = .ok w →
    queryLoop (sumT Int) cells i v = .ok w ∧ (Fits lo hi v → Fits lo hi w) := by
  induction i using Nat.strongRecOn generalizing v with
  | _ i ih =>
    intro w h
    unfold queryLoopS at h
    unfold queryLoop
    simp only at h ⊢
    split at h
    · next hc =>
      rw [dif_pos hc]
      obtain ⟨c, h1, h⟩ := Res.bind_eq_ok.1 h
      obtain ⟨x, hx, h⟩ := Res.bind_eq_ok.1 h
      obtain ⟨rfl, hfx⟩ := chk_eq hx
      rw [h1, Res.bind_ok]
      obtain ⟨e, hf⟩ := ih _ hc.2 _ _ h
      exact ⟨e, fun _ => hf hfx⟩
    · next hc =>
      rw [dif_neg hc]
      exact ⟨h, fun hv => by cases h; exact hv⟩

theorem prefixQueryS_ok {cells : List Int} (hc : CellsIn lo hi cells) {i : Nat} {w : Int} (h : prefixQueryS lo hi cells i = .ok w) :
    prefixQuery (sumT Int) cells i = .ok w ∧ Fits lo hi w := by
  unfold prefixQueryS at h
  unfold prefixQuery
  obtain ⟨v, h1, h⟩ := Res.bind_eq_ok.1 h
  rw [h1, Res.bind_ok]
  obtain ⟨e, hf⟩ := queryLoopS_ok _ _ _ _ h
  refine ⟨e, hf (hc v ?_)⟩
  unfold rd at h1
  split at h1
  · next h2 => cases h1; exact List.mem_of_getElem? h2
  · cases h1

theorem rangeQueryS_bind (cells : List Int) (x y : Nat) : rangeQueryS lo hi cells x y =
    (if x ≤ 1 then Res.ok 0 else prefixQueryS lo hi cells (x - 1)) >>= fun d => prefixQueryS lo hi cells y >>= fun v =>
      if d ≠ 0 then chk lo hi (v - d) else .ok v := by
  unfold rangeQueryS
  by_cases hx : x ≤ 1
  · simp only [if_pos hx]
  · simp only [if_neg hx]

theorem rangeQuerySum_bind (cells : List Int) (x y : Nat) : rangeQuery (sumT Int) cells x y =
    (if x ≤ 1 then Res.ok (sumT Int).zero else prefixQuery (sumT Int) cells (x - 1)) >>= fun d => prefixQuery (sumT Int) cells y >>= fun v =>
      if (sumT Int).truthy d then (sumT Int).rev v d else .ok v := by
  unfold rangeQuery
  by_cases hx : x ≤ 1
  · simp only [if_pos hx]
  · simp only [if_neg hx]

theorem rangeQueryS_ok {cells : List Int} (hc : CellsIn lo hi cells) {x y : Nat} {w : Int} (h : rangeQueryS lo hi cells x y = .ok w) :
    rangeQuery (sumT Int) cells x y = .ok w ∧ Fits lo hi w := by
  rw [rangeQueryS_bind] at h
  rw [rangeQuerySum_bind]
  obtain ⟨d, h1, h⟩ := Res.bind_eq_ok.1 h
  obtain ⟨v, h2, h⟩ := Res.bind_eq_ok.1 h
  obtain ⟨e2, f2⟩ := prefixQueryS_ok hc h2
  have e1 : (if x ≤ 1 then Res.ok (sumT Int).zero else prefixQuery (sumT Int) cells (x - 1)) = .ok d := by
    by_cases hx : x ≤ 1
    · rw [if_pos hx] at h1 ⊢; exact h1
    · rw [if_neg hx] at h1 ⊢; exact (prefixQueryS_ok hc h1).1
  rw [e1, Res.bind_ok, e2, Res.bind_ok]
  have et : (sumT Int).truthy d = decide (d ≠ 0) := rfl
  rw [et]
  by_cases hd : d = 0
  · rw [if_neg (by simpa using hd)] at h
    rw [if_neg (by simpa using hd)]
    cases h
    exact ⟨rfl, f2⟩
  · rw [if_pos hd] at h
    obtain ⟨rfl, hf⟩ := chk_eq h
    refine ⟨?_, hf⟩
    rw [if_pos (by simpa using hd)]
    rfl

theorem queryLoopS_not_exc (cells : List Int) (i : Nat) (v : Int) (e : Exc) : queryLoopS lo hi cells i v ≠ .exc e := by
  induction i using Nat.strongRecOn generalizing v with
  | _ i ih =>
    intro h
    unfold queryLoopS at h
    simp only at h
    split at h
    · next hc =>
      unfold rd at h
      split at h
      · rw [Res.bind_ok] at h
        unfold chk at h
        split at h
        · rw [Res.bind_ok] at h; exact ih _ hc.2 _ h
        · cases h
      · cases h
    · cases h

theorem prefixQueryS_not_exc (cells : List Int) (i : Nat) (e : Exc) : prefixQueryS lo hi cells i ≠ .exc e := by
  intro h
  unfold prefixQueryS rd at h
  split at h
  · rw [Res.bind_ok] at h; exact queryLoopS_not_exc _ _ _ e h
  · cases h

theorem rangeQueryS_not_exc (cells : List Int) (x y : Nat) (e : Exc) : rangeQueryS lo hi cells x y ≠ .exc e := by
  intro h
  rw [rangeQueryS_bind] at h
  have hd : ∀ e, (if x ≤ 1 then Res.ok 0 else prefixQueryS lo hi cells (x - 1)) ≠ .exc e := by
    intro e
    split
    · exact fun h => nomatch h
    · exact prefixQueryS_not_exc _ _ e
  cases h1 : (if x ≤ 1 then Res.ok 0 else prefixQueryS lo hi cells (x - 1)) with
  | ub => rw [h1] at h; cases h
  | exc e => exact hd e h1
  | ok d =>
    rw [h1, Res.bind_ok] at h
    cases h2 : prefixQueryS lo hi cells y with
    | ub => rw [h2] at h; cases h
    | exc e => exact prefixQueryS_not_exc _ _ e h2
    | ok v =>
      rw [h2, Res.bind_ok] at h
      split at h
      · unfold chk at h
        split at h <;> cases h
      · cases h

/-- If every query returns, then the sums of all ranges fit. -/
theorem Reps.sumsFit_of_queryS {f : Tree Int} {a : List Int} (h : Reps (sumT Int) f a) (hc : CellsIn lo hi f.processed)
    (hq : ∀ x y, f.queryS lo hi x y ≠ .ub) : SumsFit lo hi a := by
  intro x y
  have hne := hq x y
  have hr := h.query x y
  have hb := h.1
  unfold Tree.queryS at hne
  unfold Tree.query at hr
  simp only [hb, Bool.not_true, Bool.false_eq_true, if_false] at hne hr
  revert hne hr
  generalize min (min x y) ((f.processed.length + (W - 1)) % W) = u
  generalize min (max x y) ((f.processed.length + (W - 1)) % W) = v
  intro hne hr
  cases hm : Verif.Fenwick.rangeQueryS lo hi f.processed u v with
  | ub => exact absurd hm hne
  | exc e => exact absurd hm (rangeQueryS_not_exc _ _ _ e)
  | ok w =>
    obtain ⟨e, hf⟩ := rangeQueryS_ok hc hm
    rw [hr] at e
    cases e
    exact hf

theorem Reps.cellsIn {f : Tree Int} {a : List Int} (h : Reps (sumT Int) f a) (hs : SumsFit lo hi a) : CellsIn lo hi f.processed := by
  intro x hx
  obtain ⟨i, hi'⟩ := List.mem_iff_getElem?.1 hx
  by_cases h0 : i = 0
  · subst h0
    rw [h.2.zero] at hi'
    cases hi'
    exact SumsFit.zero hs
  · exact h.2.fits hs i x h0 hi'

theorem Reps.queryS_ne {f : Tree Int} {a : List Int} (h : Reps (sumT Int) f a) (hs : SumsFit lo hi a) (x y : Nat) :
    f.queryS lo hi x y ≠ .ub := by
  rw [h.queryS hs, h.query]
  exact fun h => nomatch h

/-- C142, the converse: a tree is built, and answers every query, without overflow exactly if all sums of neighbouring elements
fit. -/
theorem C142_exact (h0 : Fits lo hi 0) (input : List Int) (n : Nat) (hW : min n input.length + 1 ≤ W) :
    (∃ f, (Tree.empty : Tree Int).buildS lo hi input n = .ok f ∧ ∀ x y, f.queryS lo hi x y ≠ .ub) ↔
      SumsFit lo hi (input.take n) := by
  have hr : Reps (sumT Int) ((Tree.empty : Tree Int).build (sumT Int) input n) (input.take n) :=
    build_reps sumT_lawful Tree.empty input n (.inr ⟨rfl, rfl⟩) hW
  constructor
  · rintro ⟨f, hf, hq⟩
    obtain ⟨rfl, hc⟩ := buildS_ok hf
    exact hr.sumsFit_of_queryS (hc h0 fun _ h => nomatch h) hq
  · intro hp
    exact ⟨_, buildS_eq (.inr ⟨rfl, rfl⟩) hW hp, hr.queryS_ne hp⟩

/-- C142, the converse for `update`: on a tree whose sums fit, an update and all queries after it return exactly if the sums of the
new elements fit. -/
theorem C142_update_exact {f : Tree Int} {a : List Int} (ha : Reps (sumT Int) f a) (hs : SumsFit lo hi a) {p : Nat} {v : Int}
    (h1 : 1 ≤ p) (h2 : p ≤ a.length) :
    (∃ f' b, f.updateS lo hi p v = .ok (f', b) ∧ ∀ x y, f'.queryS lo hi x y ≠ .ub) ↔ SumsFit lo hi (a.modify (p - 1) (· + v)) := by
  obtain ⟨g, hg, hr⟩ := ha.update p v
  rw [if_pos ⟨h1, h2⟩] at hr
  constructor
  · rintro ⟨f', b', hf, hq⟩
    have hok : f' = g ∧ CellsIn lo hi f'.processed := by
      unfold Tree.updateS at hf
      unfold Tree.update at hg
      have e : (sumT Int).truthy v = decide (v ≠ 0) := rfl
      rw [ha.1, e] at hg
      rw [ha.1] at hf
      simp only [Bool.not_true, Bool.false_eq_true, if_false] at hf hg
      split at hf
      · next hcond =>
        rw [if_pos hcond] at hg
        obtain ⟨c, hcx, hf⟩ := Res.bind_eq_ok.1 hf
        obtain ⟨rfl, hcf⟩ := updateCellsS_ok _ _ _ _ hcx
        simp only [Res.ok.injEq, Prod.mk.injEq] at hf hg
        rw [← hf.1, ← hg.1]
        exact ⟨rfl, hcf (ha.cellsIn hs)⟩
      · next hcond =>
        rw [if_neg hcond] at hg
        simp only [Res.ok.injEq, Prod.mk.injEq] at hf hg
        rw [← hf.1, ← hg.1]
        exact ⟨rfl, ha.cellsIn hs⟩
    obtain ⟨rfl, hcf⟩ := hok
    exact hr.sumsFit_of_queryS hcf hq
  · intro hp
    refine ⟨g, decide (p ≤ a.length), ?_, hr.queryS_ne hp⟩
    rw [ha.updateS (by rw [if_pos ⟨h1, h2⟩]; exact hp)]
    exact hg

/-- All sums fit, and all queries return; with one more they do not. -/
example : (do let f ← (Tree.empty : Tree Int).buildS intMin intMax [2147483646, 1, -5] 9; f.queryS intMin intMax 1 2) =
    .ok 2147483647 := by decide +kernel
example : (do let f ← (Tree.empty : Tree Int).buildS intMin intMax [-5, 2147483646, 2] 9; f.queryS intMin intMax 1 3) =
    .ok 2147483643 := by decide +kernel
example : (do let f ← (Tree.empty : Tree Int).buildS intMin intMax [-5, 2147483646, 2] 9; f.queryS intMin intMax 2 3) =
    .ub := by decide +kernel

/-- C142 fails: a tree with the one element `lo`, which `set_value` replaces by `hi`. -/
theorem C142_counterexample (hlo : lo < 0) (hhi : 0 ≤ hi) : ¬ C142_statement lo hi := by
  intro h
  have one : ∀ v : Int, lo ≤ v → v ≤ hi → SumsFit lo hi [v] := by
    intro v h1 h2 x y
    unfold rangeSum addressed positions
    generalize max 1 (min (min x y) [v].length) - 1 = u
    generalize min (max x y) [v].length = w
    rcases w with _ | w
    · simp; omega
    · rcases u with _ | u
      · simp; omega
      · simp; omega
  have e := h [.rebuild 0 [lo] 1, .setValue 0 1 hi] (by simp [Op.Valid, W]) (by
    refine ⟨fun i a hs => by simp at hs, fun i a hs => ?_, fun i a hs => ?_⟩
    · simp only [Spec.step, put] at hs
      split at hs <;> cases hs
      exact one _ (Int.le_refl _) (by omega)
    · simp only [Spec.step, put, if_true] at hs
      split at hs
      · cases hs
        exact one _ (by omega) (Int.le_refl _)
      · cases hs)
  have eb : (Tree.empty : Tree Int).buildS lo hi [lo] 1 = .ok (Tree.empty.build (sumT Int) [lo] 1) :=
    buildS_eq (.inr ⟨rfl, rfl⟩) (by simp [W]) (one _ (Int.le_refl _) (by omega))
  have hr : Reps (sumT Int) (Tree.empty.build (sumT Int) [lo] 1) [lo] :=
    build_reps sumT_lawful Tree.empty [lo] 1 (.inr ⟨rfl, rfl⟩) (by simp [W])
  have es : (Tree.empty.build (sumT Int) [lo] 1).setValueS lo hi 1 hi = .ub := by
    rw [Reps.setValueS hr (one _ (Int.le_refl _) (by omega)) (by simpa using one hi (by omega) (Int.le_refl _)), if_neg]
    intro hx
    have := hx lo (Nat.le_refl _) rfl
    omega
  have e2 : (runS lo hi Store.init [.rebuild 0 [lo] 1, .setValue 0 1 hi]).2 = [.ok .unit, .ub] := by
    simp only [runS, stepS, Store.init, eb, put, if_true, es]
  rw [e2] at e
  simp [Spec.run, Spec.step, put] at e

example : ¬ C142_statement intMin intMax := C142_counterexample (by decide) (by decide)

/-- A history with values close to the limits of `int`. -/
example : (runS intMin intMax Store.init
      [.rebuild 0 [2147483647, -2147483648, 5, 2147483642] 9, .query 0 1 4, .update 0 2 1, .setValue 0 1 7, .query 0 1 3]).2
    = [.ok .unit, .ok (.value 2147483646), .ok (.bool true), .ok (.bool true), .ok (.value (-2147483635))] := by
  decide +kernel

end Verif.Fenwick
