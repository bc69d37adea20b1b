import Verif.Binary64
import Verif.Fenwick.Refine
import Mathlib.Algebra.Group.Int.Defs
import Mathlib.Algebra.BigOperators.Group.List.Basic

/-!
The Fenwick tree of sums over `double` (structures/fenwick_tree.h, `T = double`, `transform_t = sum_t<double>`): the functions of Model.lean
with additions and subtractions that are rounded.  Finite doubles are whole multiples of `2^-1074` (Binary64.lean).
-/

namespace Verif.Fenwick
open Spec (Op Val put)

/-- tools/math_operation.h:21-61 `sum_t<double>` with `subtraction_t<double>` as reverse. -/
def dblT : Transform Dbl where
  op := Dbl.add
  rev a b := .ok (a.sub b)
  null := .fin 0
  truthy := Dbl.truthy
  zero := .fin 0

/-! ### Specification -/

namespace Spec

/-- The call with finite doubles for arguments. -/
def Op.dbl : Op Int → Op Dbl
  | .rebuild i input n => .rebuild i (input.map .fin) n
  | .update i p v => .update i p (.fin v)
  | .setValue i p v => .setValue i p (.fin v)
  | .query i x y => .query i x y
  | .resize i k => .resize i k
  | .copy d s => .copy d s
  | .move d s => .move d s

/-- The same result, with a finite double. -/
def Val.dbl : Val Int → Val Dbl
  | .unit => .unit
  | .bool b => .bool b
  | .value v => .value (.fin v)

def resDbl : Res (Val Int) → Res (Val Dbl)
  | .ok v => .ok v.dbl
  | .exc e => .exc e
  | .ub => .ub

/-- Every sum of neighbouring elements is a double. -/
def SumsDbl (a : List Int) : Prop := ∀ x y, IsDbl (rangeSum a x y)

def StoreDbl (σ : Store Int) : Prop := ∀ i a, σ i = some a → SumsDbl a

/-- The sums of neighbouring elements are doubles before and after every call of a history. -/
def RunDbl (σ : Store Int) : List (Op Int) → Prop
  | [] => StoreDbl σ
  | o :: os => StoreDbl σ ∧ RunDbl (step σ o).1 os

/-- `set_value` replaces an element by one whose difference is a double. -/
def DiffDbl (σ : Store Int) : Op Int → Prop
  | .setValue i p v => ∀ a x, σ i = some a → 1 ≤ p → a[p - 1]? = some x → IsDbl (v - x)
  | _ => True

/-- Every `set_value` of a history does. -/
def RunDiff (σ : Store Int) : List (Op Int) → Prop
  | [] => True
  | o :: os => DiffDbl σ o ∧ RunDiff (step σ o).1 os

end Spec

open Spec

/-! ### Sums that are doubles are not rounded -/

theorem dblT_op {a b : Int} (h : IsDbl (a + b)) : dblT.op (.fin a) (.fin b) = .fin (a + b) := by
  have e : dblT.op = Dbl.add := rfl
  rw [e, Dbl.add_exact h]

theorem SumsDbl.slice {a : List Int} (h : SumsDbl a) (i j : Nat) : IsDbl (slice a i j).sum := by
  have h0 := h (i + 1) (max (i + 1) j)
  unfold rangeSum addressed positions at h0
  unfold Verif.Fenwick.slice
  by_cases hij : j ≤ i
  · have e : (a.take j).drop i = [] := by rw [List.drop_eq_nil_iff, List.length_take]; omega
    rw [e]
    exact IsDbl.zero
  · have e1 : max 1 (min (min (i + 1) (max (i + 1) j)) a.length) - 1 = min i (a.length - 1) := by omega
    have e2 : min (max (i + 1) (max (i + 1) j)) a.length = min j a.length := by omega
    rw [e1, e2] at h0
    have e3 : a.take (min j a.length) = a.take j := List.take_eq_take_min.symm
    rw [e3] at h0
    by_cases hi' : i ≤ a.length - 1
    · rw [Nat.min_eq_left hi'] at h0
      exact h0
    · have e : (a.take j).drop i = [] := by rw [List.drop_eq_nil_iff, List.length_take]; omega
      rw [e]
      exact IsDbl.zero

theorem updateCells_dbl {cells : List Int} {p : Nat} {v : Int} (hW : cells.length ≤ W)
    (hall : ∀ i x, i ≠ 0 → (updateCells (sumT Int) cells p v)[i]? = some x → IsDbl x) :
    updateCells dblT (cells.map Dbl.fin) p (.fin v) = (updateCells (sumT Int) cells p v).map Dbl.fin := by
  fun_induction updateCells (sumT Int) cells p v with
  | case1 cells p h ih =>
    have hx : (updateCells (sumT Int) (cells.set p ((sumT Int).op cells[p] v)) (nextUpdate p) v)[p]? = some (cells[p] + v) := by
      obtain ⟨h0, h1, h2⟩ := h
      rcases nextUpdate_cases p h0 h2 with ⟨e, hgt⟩ | ⟨e, he⟩
      · rw [updateCells_get _ _ _ _ (by omega) (by simpa using hW), if_neg (by omega), List.getElem?_set_self h1]
        rfl
      · rw [e, updateCells_zero, List.getElem?_set_self h1]
        rfl
    rw [updateCells, dif_pos ⟨h.1, by rw [List.length_map]; exact h.2.1, h.2.2⟩]
    have e : dblT.op ((cells.map Dbl.fin)[p]'(by simpa using h.2.1)) (.fin v) = Dbl.fin (cells[p] + v) := by
      rw [List.getElem_map]
      exact dblT_op (hall p _ (by omega) hx)
    rw [e, ← List.map_set]
    exact ih (by simpa using hW) hall
  | case2 cells p h =>
    rw [updateCells, dif_neg (by rw [List.length_map]; exact h)]

/-- The cells of a tree are sums of neighbouring elements. -/
theorem Inv.dbl {cells a : List Int} (h : Inv (sumT Int) cells a) (hf : SumsDbl a) (i : Nat) (x : Int) (h0 : i ≠ 0)
    (hx : cells[i]? = some x) : IsDbl x := by
  have hl : i < cells.length := (List.getElem?_eq_some_iff.1 hx).1
  rw [h.cell i (by omega) (by have := h.len; omega)] at hx
  cases hx
  exact SumsDbl.slice hf _ _

theorem Inv.updateDbl {cells a : List Int} (h : Inv (sumT Int) cells a) {p : Nat} {v : Int} (h1 : 1 ≤ p) (h2 : p ≤ a.length)
    (hf : SumsDbl (a.modify (p - 1) (· + v))) :
    updateCells dblT (cells.map Dbl.fin) p (.fin v) = (updateCells (sumT Int) cells p v).map Dbl.fin := by
  have hu := h.update sumT_lawful p v h1 h2
  exact updateCells_dbl h.lenW fun i x h0 hx => hu.dbl hf i x h0 hx

/-- The result of a computation on whole numbers as a double. -/
def resFin : Res Int → Res Dbl
  | .ok v => .ok (.fin v)
  | .exc e => .exc e
  | .ub => .ub

theorem rd_fin (l : List Int) (i : Nat) : rd (l.map Dbl.fin) i = resFin (rd l i) := by
  unfold rd
  rw [List.getElem?_map]
  cases l[i]? <;> rfl

theorem queryLoop_dbl {cells a : List Int} (h : Inv (sumT Int) cells a) (hf : SumsDbl a) (j : Nat) (i : Nat) (hi' : i ≤ a.length)
    (hj : i ≤ j) :
    queryLoop dblT (cells.map Dbl.fin) i (.fin (Verif.Fenwick.slice a (i - low i) j).sum) =
      resFin (queryLoop (sumT Int) cells i (Verif.Fenwick.slice a (i - low i) j).sum) := by
  induction i using Nat.strongRecOn with
  | _ i ih =>
    have hiW : i < W := by have := h.len; have := h.lenW; omega
    have e : nextQuery i = i - low i := by unfold nextQuery; rw [lsb_eq_low i hiW]
    unfold queryLoop
    simp only [e]
    split
    · next hc =>
      rw [rd_fin, h.get (i - low i) (by omega)]
      simp only [Res.bind_ok, resFin]
      have hs : F (sumT Int) (Verif.Fenwick.slice a (i - low i - low (i - low i)) (i - low i)) + (Verif.Fenwick.slice a (i - low i) j).sum =
          (Verif.Fenwick.slice a (i - low i - low (i - low i)) j).sum := by
        rw [F_sum, ← List.sum_append, slice_append (by omega) (by omega)]
      have hs' : (sumT Int).op (F (sumT Int) (Verif.Fenwick.slice a (i - low i - low (i - low i)) (i - low i))) (Verif.Fenwick.slice a (i - low i) j).sum =
          (Verif.Fenwick.slice a (i - low i - low (i - low i)) j).sum := hs
      have hd : dblT.op (.fin (F (sumT Int) (Verif.Fenwick.slice a (i - low i - low (i - low i)) (i - low i)))) (.fin (Verif.Fenwick.slice a (i - low i) j).sum) =
          .fin (Verif.Fenwick.slice a (i - low i - low (i - low i)) j).sum := by
        have hI : IsDbl (F (sumT Int) (Verif.Fenwick.slice a (i - low i - low (i - low i)) (i - low i)) + (Verif.Fenwick.slice a (i - low i) j).sum) := by
          rw [hs]; exact SumsDbl.slice hf _ _
        rw [dblT_op hI, hs]
      rw [hs', hd]
      exact ih (i - low i) (by omega) (by omega) (by omega)
    · rfl

theorem prefixQuery_dbl {cells a : List Int} (h : Inv (sumT Int) cells a) (hf : SumsDbl a) {i : Nat} (hi' : i ≤ a.length) :
    prefixQuery dblT (cells.map Dbl.fin) i = resFin (prefixQuery (sumT Int) cells i) := by
  unfold prefixQuery
  rw [rd_fin, h.get i hi']
  exact queryLoop_dbl h hf i i hi' (Nat.le_refl _)

theorem rangeQuery_dbl {cells a : List Int} (h : Inv (sumT Int) cells a) (hf : SumsDbl a) {x y : Nat} (h1 : x ≤ y) (h2 : y ≤ a.length) :
    rangeQuery dblT (cells.map Dbl.fin) x y = resFin (rangeQuery (sumT Int) cells x y) := by
  have hr := sum_rangeQuery h x y h1 h2
  unfold rangeQuery at hr ⊢
  have key : ∀ d v : Int, (if (sumT Int).truthy d = true then (sumT Int).rev v d else .ok v) = .ok (Verif.Fenwick.slice a (x - 1) y).sum →
      (if dblT.truthy (.fin d) = true then dblT.rev (.fin v) (.fin d) else .ok (.fin v)) =
        resFin (if (sumT Int).truthy d = true then (sumT Int).rev v d else .ok v) := by
    intro d v hr
    by_cases hd0 : d = 0
    · subst hd0
      rfl
    · have ht : (sumT Int).truthy d = true := by simpa [sumT] using hd0
      have ht' : dblT.truthy (.fin d) = true := by simpa [dblT, Dbl.truthy] using hd0
      rw [if_pos ht] at hr ⊢
      rw [if_pos ht']
      have e : v - d = (Verif.Fenwick.slice a (x - 1) y).sum := by
        change Res.ok (v - d) = _ at hr
        injection hr
      rw [hr]
      have er : ∀ a b, dblT.rev a b = .ok (Dbl.sub a b) := fun _ _ => rfl
      rw [er, Dbl.sub_exact (by rw [e]; exact SumsDbl.slice hf _ _), e]
      rfl
  rw [prefixQuery_dbl h hf h2, h.prefixQuery sumT_lawful y h2]
  rw [h.prefixQuery sumT_lawful y h2] at hr
  by_cases hx : x ≤ 1
  · rw [if_pos hx] at hr ⊢
    rw [if_pos hx]
    simp only [Res.bind_ok, resFin] at hr ⊢
    exact key _ _ hr
  · rw [if_neg hx, h.prefixQuery sumT_lawful _ (by omega)] at hr
    rw [if_neg hx, if_neg hx, prefixQuery_dbl h hf (by omega), h.prefixQuery sumT_lawful _ (by omega)]
    simp only [Res.bind_ok, resFin] at hr ⊢
    exact key _ _ hr

theorem buildLoop_dbl (rest : List Int) : ∀ (cells done : List Int), SumsDbl (done ++ rest) →
    Inv (sumT Int) cells (done ++ List.replicate rest.length 0) →
    buildLoop dblT (cells.map Dbl.fin) (done.length + 1) (rest.map Dbl.fin) = (buildLoop (sumT Int) cells (done.length + 1) rest).map Dbl.fin := by
  induction rest with
  | nil => intro cells done _ h; rfl
  | cons x rest ih =>
    intro cells done hf h
    have e : (done ++ List.replicate (x :: rest).length (0 : Int)).modify (done.length + 1 - 1) (· + x)
        = (done ++ [x]) ++ List.replicate rest.length 0 := by
      simp only [List.length_cons, List.replicate_succ, Nat.add_sub_cancel]
      rw [modify_append_mid]
      simp
    have hu := h.update sumT_lawful (done.length + 1) x (by omega) (by simp)
    have e' : (done ++ List.replicate (x :: rest).length (0 : Int)).modify (done.length + 1 - 1) (fun y => (sumT Int).op y x)
        = (done ++ [x]) ++ List.replicate rest.length 0 := e
    rw [e'] at hu
    have hz : ∀ n, SumsDbl ((done ++ [x]) ++ List.replicate n 0) := by
      intro n i j
      have : ∃ i' j', rangeSum (done ++ [x] ++ List.replicate n 0) i j = (Verif.Fenwick.slice (done ++ x :: rest) i' j').sum := by
        refine ⟨max 1 (min (min i j) (done ++ [x] ++ List.replicate n 0).length) - 1,
          min (min (max i j) (done ++ [x] ++ List.replicate n 0).length) (done.length + 1), ?_⟩
        unfold rangeSum addressed positions Verif.Fenwick.slice
        generalize max 1 (min (min i j) (done ++ [x] ++ List.replicate n 0).length) - 1 = u
        generalize min (max i j) (done ++ [x] ++ List.replicate n 0).length = w
        have e1 : (done ++ x :: rest).take (min w (done.length + 1)) = (done ++ [x]).take w := by
          have : done ++ x :: rest = (done ++ [x]) ++ rest := by simp
          rw [this, List.take_append_of_le_length (by simp)]
          have := (List.take_eq_take_min (l := done ++ [x]) (i := w)).symm
          simpa using this
        rw [e1, List.take_append, List.drop_append, List.sum_append, List.take_replicate, List.drop_replicate, List.sum_replicate]
        simp
      obtain ⟨i', j', e⟩ := this
      rw [e]
      exact SumsDbl.slice hf _ _
    rw [List.map_cons, buildLoop, buildLoop, h.updateDbl (by omega) (by simp) (by rw [e]; exact hz _)]
    have := ih (updateCells (sumT Int) cells (done.length + 1) x) (done ++ [x]) (by simpa using hf) hu
    simpa using this

/-- The tree with finite doubles in its cells. -/
def Tree.dbl (f : Tree Int) : Tree Dbl := ⟨f.processed.map Dbl.fin, f.built⟩

theorem build_dbl {f : Tree Int} (hb : f.built = true ∨ Unbuilt f) {input : List Int} {n : Nat} (hW : min n input.length + 1 ≤ W)
    (hf : SumsDbl (input.take n)) : f.dbl.build dblT (input.map Dbl.fin) n = (f.build (sumT Int) input n).dbl := by
  unfold Tree.build Tree.dbl
  have hsize : (if n < input.length then n + 1 else input.length + 1) = min n input.length + 1 := by
    split <;> omega
  simp only [List.length_map, hsize, Nat.add_sub_cancel]
  have hc : ∀ t : Int, (if f.processed.length < min n input.length + 1 then List.replicate (min n input.length + 1) t
      else if f.built = true then List.replicate (min n input.length + 1) t else f.processed) =
      List.replicate (min n input.length + 1) t := by
    intro t
    rcases hb with hb | ⟨hb, hp⟩
    · simp [hb]
    · simp [hp]
  have hc' : (if f.processed.length < min n input.length + 1 then List.replicate (min n input.length + 1) dblT.null
      else if f.built = true then List.replicate (min n input.length + 1) dblT.null else f.processed.map Dbl.fin) =
      (List.replicate (min n input.length + 1) (sumT Int).null).map Dbl.fin := by
    rw [List.map_replicate]
    rcases hb with hb | ⟨hb, hp⟩
    · simp [hb, dblT, sumT]
    · simp [hp, dblT, sumT]
  rw [hc, hc']
  have h0 := Inv.init (sumT_lawful (T := Int)) (min n input.length) hW
  have e : input.take (min n input.length) = input.take n := List.take_eq_take_min.symm
  rw [← List.map_take, e]
  have := buildLoop_dbl (input.take n) (List.replicate (min n input.length + 1) 0) [] (by simpa using hf)
    (by rw [List.nil_append, List.length_take]; exact h0)
  have e2 : buildLoop dblT ((List.replicate (min n input.length + 1) (sumT Int).null).map Dbl.fin) 1 ((input.take n).map Dbl.fin) =
      (buildLoop (sumT Int) (List.replicate (min n input.length + 1) (sumT Int).null) 1 (input.take n)).map Dbl.fin := this
  rw [e2]

/-- The result of a call on a tree of whole numbers, with doubles. -/
def resTree : Res (Tree Int × Bool) → Res (Tree Dbl × Bool)
  | .ok (f, b) => .ok (f.dbl, b)
  | .exc e => .exc e
  | .ub => .ub

theorem Reps.updateDbl {f : Tree Int} {a : List Int} (h : Reps (sumT Int) f a) {p : Nat} {v : Int}
    (hf : SumsDbl (if 1 ≤ p ∧ p ≤ a.length then a.modify (p - 1) (· + v) else a)) :
    f.dbl.update dblT p (.fin v) = resTree (f.update (sumT Int) p v) := by
  obtain ⟨hb, hi'⟩ := h
  have hl := hi'.len
  unfold Tree.update Tree.dbl
  simp only [hb, Bool.not_true, Bool.false_eq_true, if_false, List.length_map]
  have e : (sumT Int).truthy v = dblT.truthy (.fin v) := rfl
  rw [e]
  split
  · next hc =>
    simp only [Bool.and_eq_true, decide_eq_true_eq] at hc
    by_cases hp : 1 ≤ p
    · rw [if_pos ⟨hp, by omega⟩] at hf
      rw [hi'.updateDbl hp (by omega) hf]
      simp only [resTree, Tree.dbl]
    · have : p = 0 := by omega
      subst this
      simp only [updateCells_zero, resTree, Tree.dbl]
  · simp only [resTree, Tree.dbl, hb]

theorem Reps.queryDbl {f : Tree Int} {a : List Int} (h : Reps (sumT Int) f a) (hf : SumsDbl a) (x y : Nat) :
    f.dbl.query dblT x y = resFin (f.query (sumT Int) x y) := by
  obtain ⟨hb, hi'⟩ := h
  have hl := hi'.len
  have hW := hi'.lenW
  unfold Tree.query Tree.dbl
  simp only [hb, Bool.not_true, Bool.false_eq_true, if_false, List.length_map]
  rw [hl, length_last (by omega), rangeQuery_dbl hi' hf (by omega) (by omega)]

theorem Reps.setValueDbl {f : Tree Int} {a : List Int} (h : Reps (sumT Int) f a) (hf : SumsDbl a) {p : Nat} {v : Int}
    (hf' : SumsDbl (if 1 ≤ p ∧ p ≤ a.length then a.set (p - 1) v else a)) (hn : ∀ x, 1 ≤ p → a[p - 1]? = some x → IsDbl (v - x)) :
    f.dbl.setValue dblT p (.fin v) = resTree (f.setValue (sumT Int) p v) := by
  obtain ⟨hb, hi'⟩ := h
  have hl := hi'.len
  unfold Tree.setValue Tree.dbl
  simp only [hb, Bool.not_true, Bool.false_eq_true, if_false, List.length_map]
  have e : (decide (p < f.processed.length) && decide (0 < p)) = decide (1 ≤ p ∧ p ≤ a.length) := by
    rw [hl, ← Bool.decide_and]; congr 1; rw [eq_iff_iff]; omega
  rw [e]
  by_cases hc : 1 ≤ p ∧ p ≤ a.length
  · rw [rangeQuery_dbl hi' hf (Nat.le_refl p) hc.2, sum_rangeQuery hi' p p (by omega) hc.2, slice_single a p hc.1 hc.2]
    rw [if_pos hc] at hf'
    have hm := modify_add_sub a (p - 1) (by omega) v
    have hg : a[p - 1]? = some (a[p - 1]'(by omega)) := List.getElem?_eq_getElem _
    have hd := hn _ hc.1 hg
    have e1 : dblT.rev (.fin v) (.fin (a[p - 1]'(by omega))) = .ok (.fin (v - a[p - 1]'(by omega))) := by
      have er : ∀ a b, dblT.rev a b = .ok (Dbl.sub a b) := fun _ _ => rfl
      rw [er, Dbl.sub_exact hd]
    have e2 : (sumT Int).rev v (a[p - 1]'(by omega)) = .ok (v - a[p - 1]'(by omega)) := rfl
    simp only [decide_eq_true hc, if_true, Res.bind_ok, List.sum_singleton, resFin, e1, e2]
    have e3 : dblT.truthy (.fin (v - a[p - 1]'(by omega))) = (sumT Int).truthy (v - a[p - 1]'(by omega)) := rfl
    rw [e3]
    split
    · rw [hi'.updateDbl hc.1 hc.2 (by rw [hm]; exact hf')]
      simp only [resTree, Tree.dbl]
    · simp only [resTree, Tree.dbl, hb]
  · simp only [decide_eq_false hc, Bool.false_eq_true, if_false, resTree, Tree.dbl, hb]

theorem put_dbl (σ : Store Int) (i : Nat) (f : Tree Int) : put (fun j => (σ j).dbl) i f.dbl = fun j => (put σ i f j).dbl := by
  funext j
  unfold put
  split <;> rfl

theorem step_dbl {σ : Store Int} {τ : Spec.Store Int} (h : ∀ i, Rel (σ i) (τ i)) (hf : StoreDbl τ) {o : Op Int} (ho : o.Valid)
    (hf' : StoreDbl (Spec.step τ o).1) (hn : DiffDbl τ o) :
    step dblT (fun i => (σ i).dbl) o.dbl = (fun i => ((step (sumT Int) σ o).1 i).dbl, resDbl (step (sumT Int) σ o).2) := by
  cases o with
  | rebuild i input n =>
    have h0 := hf' i (input.take n) (by simp [Spec.step, put])
    simp only [step, Op.dbl]
    rw [build_dbl (h i).built ho h0, put_dbl]
    rfl
  | update i p v =>
    have hi' := h i
    simp only [step, Op.dbl]
    cases hτ : τ i with
    | none =>
      rw [hτ] at hi'
      simp only [Tree.update, Tree.dbl, hi'.1, Bool.not_false, if_true]
      rfl
    | some a =>
      rw [hτ] at hi'
      rw [Reps.updateDbl hi' (hf' i _ (by simp [Spec.step, put, hτ]))]
      rcases (σ i).update (sumT Int) p v with ⟨f, b⟩ | e | _
      · simp only [resTree, put_dbl]; rfl
      · rfl
      · rfl
  | setValue i p v =>
    have hi' := h i
    simp only [step, Op.dbl]
    cases hτ : τ i with
    | none =>
      rw [hτ] at hi'
      simp only [Tree.setValue, Tree.dbl, hi'.1, Bool.not_false, if_true]
      rfl
    | some a =>
      rw [hτ] at hi'
      rw [Reps.setValueDbl hi' (hf i a hτ) (hf' i _ (by simp [Spec.step, put, hτ])) (fun x h1 hx => hn a x hτ h1 hx)]
      rcases (σ i).setValue (sumT Int) p v with ⟨f, b⟩ | e | _
      · simp only [resTree, put_dbl]; rfl
      · rfl
      · rfl
  | query i x y =>
    have hi' := h i
    simp only [step, Op.dbl]
    cases hτ : τ i with
    | none =>
      rw [hτ] at hi'
      simp only [Tree.query, Tree.dbl, hi'.1, Bool.not_false, if_true]
      rfl
    | some a =>
      rw [hτ] at hi'
      rw [Reps.queryDbl hi' (hf i a hτ)]
      rcases (σ i).query (sumT Int) x y with v | e | _ <;> rfl
  | resize i k =>
    simp only [step, Op.dbl]
    have : (σ i).dbl.resize k = ((σ i).resize k).dbl := by
      unfold Tree.resize Tree.dbl
      simp only [List.length_map]
      split <;> simp
    rw [this, put_dbl]
    rfl
  | copy dst src =>
    simp only [step, Op.dbl]
    rw [put_dbl]
    rfl
  | move dst src =>
    simp only [step, Op.dbl]
    have e1 : (σ src).dbl.moveFrom.1 = (σ src).moveFrom.1.dbl := rfl
    have e2 : (σ src).dbl.moveFrom.2 = (σ src).moveFrom.2.dbl := rfl
    rw [e1, e2, put_dbl, put_dbl]
    rfl

theorem RunDbl.now {τ : Spec.Store Int} {ops : List (Op Int)} (h : RunDbl τ ops) : StoreDbl τ := by
  cases ops with
  | nil => exact h
  | cons => exact h.1

theorem run_dbl (ops : List (Op Int)) : ∀ {σ : Store Int} {τ : Spec.Store Int}, (∀ i, Rel (σ i) (τ i)) → (∀ o ∈ ops, o.Valid) →
    RunDbl τ ops → RunDiff τ ops →
    (run dblT (fun i => (σ i).dbl) (ops.map Op.dbl)).2 = (run (sumT Int) σ ops).2.map resDbl := by
  induction ops with
  | nil => exact fun _ _ _ _ => rfl
  | cons o os ih =>
    intro σ τ h hv hf hn
    have e := step_dbl h hf.1 (hv o (by simp)) (RunDbl.now hf.2) hn.1
    have h' := (step_refines σ τ h o (hv o (by simp))).2
    simp only [List.map_cons, run, e]
    rw [ih h' (fun o' ho' => hv o' (by simp [ho'])) hf.2 hn.2]

end Verif.Fenwick
