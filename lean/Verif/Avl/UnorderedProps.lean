import Verif.Avl.Unordered
import Mathlib.Order.Nat

/-! C163: AVL trees of elements that are not linearly ordered. -/

namespace Verif.Avl
open Spec

/-- Specification: the results of `insert` and `remove` on every tree that calls of the mutators can make are truthful.
An inserted value is contained afterwards; a refused one is contained already; `remove` reports `true` only for a
contained value and then takes one element from the tree, and leaves the elements alone if it reports `false`. -/
def Truthful {α : Type} (c : Cmp α) : Prop :=
  ∀ (ops : List (Op α)) a os, runC c Avl.new ops = .ok (a, os) → ∀ x,
    ((a.insertC c x).2 = true → (a.insertC c x).1.containsC c x = true) ∧
    ((a.insertC c x).2 = false → a.containsC c x = true) ∧
    ((a.removeC c x).2 = true → a.containsC c x = true) ∧
    ((a.removeC c x).2 = false → inorder (a.removeC c x).1.root = inorder a.root)

/-- Whatever the comparisons answer, every history of calls terminates without undefined behaviour, what each call
reports is what it did to the number of elements, no element appears that was not inserted, `size()` is the number of
elements modulo 2^64 and the stored heights are exact. What is missing for the full statement `Truthful` is false
(`C163_not`). -/
theorem C163_any_partial {α : Type} (c : Cmp α) (ops : List (Op α)) :
    ∃ a os, runC c Avl.new ops = .ok (a, os) ∧ Trace c Avl.new ops os a ∧
      a.size = Spec.count a.root % W ∧ HeightsExact a.root := by
  have main : ∀ (ops : List (Op α)) (a : Avl α), AnyInv a →
      ∃ a' os, runC c a ops = .ok (a', os) ∧ Trace c a ops os a' ∧ AnyInv a' := by
    intro ops
    induction ops with
    | nil => intro a h; exact ⟨a, [], rfl, .nil, h⟩
    | cons op ops ih =>
      intro a h
      obtain ⟨a1, o, s1, s2, s3⟩ := stepC_any c h op
      obtain ⟨a2, os, t1, t2, t3⟩ := ih a1 s2
      exact ⟨a2, o :: os, by simp only [runC, s1, Res.bind_ok, t1], .cons s1 s3 t2, t3⟩
  obtain ⟨a, os, h1, h2, h3⟩ := main ops Avl.new ⟨rfl, trivial⟩
  exact ⟨a, os, h1, h2, by rw [count_eq]; exact h3.size, h3.exact⟩

variable {α : Type} [LinearOrder α]

/-- Floating point numbers without duplicates: the tree always holds a set of numbers or a single NaN, and every call
does and returns what `Call` says. A NaN is refused by a non-empty tree though not contained, a tree that holds NaN
refuses everything, `remove(NaN)` takes some number from the tree and reports `true`, `remove_all(NaN)` empties the
tree, and any `remove` on a tree that holds NaN takes the NaN. `contains` finds exactly the numbers and never NaN. -/
theorem C163_nan_partial (ops : List (Op (Fl α))) (hops : .enableDuplicates ∉ ops) :
    ∃ a os k, runC ieee Avl.new ops = .ok (a, os) ∧ Calls (.nums fun _ => False) ops os k ∧ Holds a k ∧
      (∀ x, a.containsC ieee (.num x) = true ↔ ∃ s, k = .nums s ∧ s x) ∧ a.containsC ieee .nan = false := by
  obtain ⟨a, os, k, h1, h2, h3⟩ := finv_run ops finv_new hops
  refine ⟨a, os, k, h1, h2, finv_holds h3, fun x => ?_, ?_⟩
  · cases k with
    | nums s =>
      obtain ⟨b, m, e, p1, p2, p3, p4⟩ := h3
      subst e
      rw [Avl.containsC, mapAvl, containsC_map ieee_agrees, contains_spec x b.root p1.sorted, p1.mem, p4]
      constructor
      · intro h; exact ⟨s, rfl, h⟩
      · rintro ⟨s', e, h⟩; cases e; exact h
    | onlyNan =>
      obtain ⟨-, -, i, p, hh, e⟩ := h3
      simp [Avl.containsC, e, Tree.containsC, ieee_lt_nan, ieee_gt_nan, ieee_eq_nan]
  · unfold Avl.containsC
    cases a.root with
    | nil => rfl
    | node i p v h l r => simp [Tree.containsC, ieee_nan_lt, ieee_nan_gt, ieee_nan_eq]

/-- A linear order given by its comparisons: the same behaviour as in the model of C1 and its neighbours. -/
theorem C163_same (a : Avl α) (ops : List (Op α)) : runC lin a ops = run a ops := by
  induction ops generalizing a with
  | nil => rfl
  | cons op ops ih => simp only [runC, run, stepC_lin, ih]

/-- The full statement holds for linear orders. -/
theorem C163_linear : Truthful (lin : Cmp α) := by
  intro ops a os hr x
  rw [C163_same] at hr
  obtain ⟨a', h1, h2⟩ := sim_run ops (sim_new (α := α))
  rw [h1] at hr
  simp only [Res.ok.injEq, Prod.mk.injEq] at hr
  obtain ⟨rfl, -⟩ := hr
  have hI := avl_insertC_map lin_agrees a' x
  have hR := avl_removeC_map lin_agrees a' x
  have hC : ∀ b : Avl α, b.containsC lin x = b.contains x := fun b => by
    have := containsC_map lin_agrees x b.root
    rwa [map_id'] at this
  simp only [mapAvl_id, id] at hI hR
  obtain ⟨i1, i2⟩ := sim_insert h2 x
  obtain ⟨-, -, r3, -⟩ := remove_spec a'.size a'.root x h2.sorted
  obtain ⟨r1, r2⟩ := sim_remove h2 x
  rw [hI, hR, hC, hC]
  simp only [Avl.contains, contains_spec x _ h2.sorted, contains_spec x _ i1.sorted, h2.mem, i1.mem]
  refine ⟨fun h => ?_, fun h => ?_, fun h => ?_, fun h => (r3 h).1⟩
  · rw [h] at i2
    by_cases hc : (MSet.run (MSet.empty (α := α)) ops).1.dups = true ∨ (MSet.run (MSet.empty (α := α)) ops).1.mult x = 0
    · simp [MSet.step, hc]
    · simp [MSet.step, hc] at i2
  · rw [h] at i2
    by_cases hc : (MSet.run (MSet.empty (α := α)) ops).1.dups = true ∨ (MSet.run (MSet.empty (α := α)) ops).1.mult x = 0
    · simp [MSet.step, hc] at i2
    · omega
  · rw [h] at r2
    by_cases hc : (MSet.run (MSet.empty (α := α)) ops).1.mult x = 0
    · simp [MSet.step, hc] at r2
    · omega

/-- Calls with other arguments. -/
def Op.mapOp {β : Type} (f : α → β) : Op α → Op β
  | .insert x => .insert (f x)
  | .remove x => .remove (f x)
  | .removeAll x => .removeAll (f x)
  | .clear => .clear
  | .enableDuplicates => .enableDuplicates
  | .disableDuplicates => .disableDuplicates

/-- Results with another tree. -/
def mapRes {β γ : Type} (f : α → β) : Res (Avl α × γ) → Res (Avl β × γ)
  | .ok (a, o) => .ok (mapAvl f a, o)
  | .exc e => .exc e
  | .ub => .ub

/-- As long as no NaN is passed, with or without duplicates, floating point numbers behave as a linear order. -/
theorem C163_numbers (a : Avl α) (ops : List (Op α)) :
    runC ieee (mapAvl Fl.num a) (ops.map (Op.mapOp Fl.num)) = mapRes Fl.num (run a ops) := by
  have hstep : ∀ (a : Avl α) op, stepC ieee (mapAvl Fl.num a) (Op.mapOp Fl.num op) = mapRes Fl.num (step a op) := by
    intro a op
    cases op with
    | insert x => simp only [stepC, step, Op.mapOp, avl_insertC_map ieee_agrees, mapRes]
    | remove x => simp only [stepC, step, Op.mapOp, avl_removeC_map ieee_agrees, mapRes]
    | removeAll x =>
      simp only [stepC, step, Op.mapOp, Avl.removeAllC, Avl.removeAll]
      rw [show (mapAvl Fl.num a).root = a.root.map Fl.num from rfl, nodes_map, avl_removeAllFuelC_map ieee_agrees]
      cases Avl.removeAllFuel (Avl.nodes a.root + 1) a x 0 <;> rfl
    | clear => rfl
    | enableDuplicates => rfl
    | disableDuplicates => rfl
  induction ops generalizing a with
  | nil => rfl
  | cons op ops ih =>
    simp only [List.map_cons, runC, run, hstep]
    cases hs : step a op with
    | ok r =>
      obtain ⟨a1, o⟩ := r
      simp only [mapRes, Res.bind_ok, ih]
      cases run a1 ops <;> rfl
    | exc e => rfl
    | ub => rfl

/-- The elements of the tree and the last result after a history. -/
def look {β : Type} (c : Cmp β) (ops : List (Op β)) : Option (List β × Option Out × Nat) :=
  (runC c Avl.new ops).toOption.map fun r => (inorder r.1.root, r.2.getLast?, r.1.size)

/-- `remove(NaN)` takes 1 from the tree {1} and reports success. -/
theorem C163_counterexample_remove :
    look ieee [.insert (.num 1), .remove (.nan : Fl Nat)] = some ([], some (.bool true), 0) := by decide +kernel

/-- A tree that holds NaN refuses 1, which it does not contain. -/
theorem C163_counterexample_refused :
    look ieee [.insert .nan, .insert (.num (1 : Nat))] = some ([.nan], some (.bool false), 1) := by decide +kernel

/-- `remove(1)` on a tree that holds only NaN takes the NaN. -/
theorem C163_counterexample_other :
    look ieee [.insert .nan, .remove (.num (1 : Nat))] = some ([], some (.bool true), 0) := by decide +kernel

/-- With duplicates, `remove(1)` reports that nothing was removed but has replaced an element 1 by a second 2. -/
theorem C163_counterexample_replaced :
    look (ieee (α := Nat)) [.enableDuplicates, .insert .nan, .insert .nan, .insert (.num 3), .insert .nan, .insert (.num 1), .insert (.num 2),
      .remove (.num 3), .insert (.num 1), .remove (.num 2)] = some ([.nan, .nan, .num 1, .num 2, .num 1], some (.bool true), 5) ∧
    look (ieee (α := Nat)) [.enableDuplicates, .insert .nan, .insert .nan, .insert (.num 3), .insert .nan, .insert (.num 1), .insert (.num 2),
      .remove (.num 3), .insert (.num 1), .remove (.num 2), .remove (.num 1)] =
      some ([.nan, .nan, .num 2, .num 2, .num 1], some (.bool false), 5) := by decide +kernel

/-- With duplicates, an inserted number may not be found. -/
theorem C163_counterexample_lost :
    (runC (ieee (α := Nat)) Avl.new [.enableDuplicates, .insert .nan, .insert (.num 2)]).toOption.map
      (fun r => (r.2, r.1.containsC ieee (.num 2))) = some ([.unit, .bool true, .bool true], false) := by decide +kernel

/-- The full statement is false for floating point numbers. -/
theorem C163_not : ¬ Truthful (ieee : Cmp (Fl Nat)) := by
  intro h
  have h1 := (h [.insert (.num 1)] _ _ rfl .nan).2.2.1 (by decide +kernel)
  revert h1
  decide +kernel

/-- Numbers alone: {1, 2}, 2 refused the second time, 1 removed. -/
example : look ieee [.insert (.num 2), .insert (.num 1), .insert (.num 2), .remove (.num (1 : Nat))] =
    some ([.num 2], some (.bool true), 1) := by decide +kernel
/-- `remove_all(NaN)` empties {1, 2, 3} and reports 3. -/
example : look ieee [.insert (.num 2), .insert (.num 1), .insert (.num 3), .removeAll (.nan : Fl Nat)] =
    some ([], some (.count 3), 0) := by decide +kernel
/-- A comparison that is never true: every tree holds at most one element. -/
example : look (⟨fun _ _ => false, fun _ _ => false, fun _ _ => false⟩ : Cmp Nat) [.insert 2, .insert 1, .removeAll 7] =
    some ([], some (.count 1), 0) := by decide +kernel
/-- A comparison that is always true: every value goes to the left and is never found. -/
example : look (⟨fun _ _ => true, fun _ _ => true, fun _ _ => true⟩ : Cmp Nat) [.insert 2, .insert 1, .insert 3, .remove 1] =
    some ([3, 1, 2], some (.bool false), 3) := by decide +kernel
/-- `Call` allows only the stated result. -/
example : ¬ ∃ k, Call (.nums fun x : Nat => x = 1) (.remove .nan) (.bool false) k := by
  rintro ⟨k, h⟩
  cases h with
  | removeNanEmpty h => exact h 1 rfl

end Verif.Avl
