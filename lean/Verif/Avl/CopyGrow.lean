import Verif.Avl.Degenerate

/-!
C183: AVL trees that are copied between insertions.  A copy has height 1 in every node (binary_tree.h:155-171 copies values
and children only, C39), so later insertions rotate in the wrong places and push deep subtrees further down.
-/

namespace Verif.Avl
open Spec
set_option linter.unusedSectionVars false

/-- A call of a program that works on one tree: an insertion, or going on with a copy of the tree. -/
inductive Spec.GrowOp (α : Type) where
  | ins (x : α)
  | copy

variable {α : Type} [LinearOrder α]

/-- One call (binary_tree.h:480-484; copy constructor: tree.h:898-900). -/
def grow1 (a : Avl α) : GrowOp α → Avl α
  | .ins x => (a.insert x).1
  | .copy => a.copy

/-- A program, from an empty tree. -/
def grow (ops : List (GrowOp α)) : Avl α := ops.foldl grow1 Avl.new

/-- C183 (full statement): the depth is at most logarithmic in the number of elements. -/
def C183_statement : Prop := ∃ c, ∀ ops : List (GrowOp Nat), depth (grow ops).root ≤ c * (Nat.log2 (count (grow ops).root + 1) + 1)

/-! ### Copies -/

omit [LinearOrder α] in
theorem copy_facts (t : Tree α) : ∀ par n, depth (t.copy par n).1 = depth t ∧ count (t.copy par n).1 = count t ∧
    (t ≠ .nil → (t.copy par n).1.height = 1) := by
  induction t with
  | nil => exact fun par n => ⟨rfl, rfl, fun h => absurd rfl h⟩
  | node i p v h l r ihl ihr =>
    intro par n
    simp only [Tree.copy, depth, count]
    obtain ⟨a1, a2, -⟩ := ihl (some n) (n + 1)
    obtain ⟨b1, b2, -⟩ := ihr (some n) (l.copy (some n) (n + 1)).2
    exact ⟨by rw [a1, b1], by rw [a2, b2], fun _ => rfl⟩

omit [LinearOrder α] in
theorem copy_root (a : Avl α) : ∃ n, a.copy.root = (a.root.copy none n).1 := by
  unfold Avl.copy Avl.copyAssign
  cases h : a.root with
  | nil => exact ⟨0, rfl⟩
  | node i p v hh l r => exact ⟨_, rfl⟩

/-! ### The bad programs -/

/-- `r` with a left child `a` that has one left child `c`, and anything of depth `k + 1` and `2k + 1` elements at the right. -/
def BadTree (r a c k : Nat) (t : Tree Nat) : Prop :=
  ∃ ir ia ic pr pa pc hr D, t = .node ir pr r hr (.node ia pa a 2 (.node ic pc c 1 .nil .nil) .nil) D ∧
    (D.height = 1 ∨ D.height = 2) ∧ depth D = k + 1 ∧ count D = 2 * k + 1

theorem bad_round {r a b c d k : Nat} (h1 : d < c) (h2 : c < a) (h3 : a < b) (h4 : b < r) (t : Avl Nat) (h : BadTree r a c k t.root) :
    BadTree a c d (k + 1) (((t.insert b).1.copy).insert d).1.root := by
  obtain ⟨ir, ia, ic, pr, pa, pc, hr, D, e, hD, dD, cD⟩ := h
  have e1 : ∃ ib pb, (t.insert b).1.root = .node ir pr r (max 2 D.height + 1) (.node ia pa a 2 (.node ic pc c 1 .nil .nil) (.node ib pb b 1 .nil .nil)) D := by
    refine ⟨t.next, some ia, ?_⟩
    unfold Avl.insert
    rw [e]
    have n1 : ¬ b < a := by omega
    cases D with
    | nil => simp [Tree.height] at hD
    | node j q w g dl dr =>
      have hg : g = 1 ∨ g = 2 := hD
      rcases hg with rfl | rfl <;> simp [Tree.insert, h4, n1, h3, Tree.rotateIfNeeded, Tree.height]
  obtain ⟨ib, pb, e1⟩ := e1
  obtain ⟨n, e2⟩ := copy_root (t.insert b).1
  have hne : D ≠ .nil := by rintro rfl; simp [Tree.height] at hD
  rw [e1] at e2
  simp only [Tree.copy] at e2
  generalize ht : (t.insert b).1.copy = t2 at e2 ⊢
  have hf := copy_facts D
  obtain ⟨m, D', hD'⟩ : ∃ m D', t2.root = .node n none r 1 (.node (n + 1) (some n) a 1 (.node (n + 2) (some (n + 1)) c 1 .nil .nil)
      (.node (n + 3) (some (n + 1)) b 1 .nil .nil)) D' ∧ D' = (D.copy (some n) m).1 := ⟨_, _, e2, rfl⟩
  obtain ⟨f1, f2, f3⟩ := hf (some n) m
  rw [← hD'.2] at f1 f2 f3
  replace f3 := f3 hne
  obtain ⟨e3, -⟩ := hD'
  unfold Avl.insert
  rw [e3]
  have l1 : d < a := by omega
  have l2 : d < r := by omega
  refine ⟨n + 1, n + 2, t2.next, none, some (n + 1), some (n + 2), 3, .node n (some (n + 1)) r 2 (.node (n + 3) (some (n + 1)) b 1 .nil .nil) D', ?_, Or.inr rfl, ?_, ?_⟩
  · cases D' with
    | nil => cases f3
    | node j q w g dl dr =>
      have hg : g = 1 := f3
      subst hg
      simp [Tree.insert, h1, l1, l2, Tree.rotateIfNeeded, Tree.height, Tree.rotateRight]
  · simp only [depth, f1, dD]; omega
  · simp only [count, f2, cD]; omega

/-- Four insertions, then `m` times an insertion, a copy and an insertion; `n` is the first element. -/
def badGrow (n : Nat) : Nat → List (GrowOp Nat)
  | 0 => [.ins n, .ins (n + 2), .ins (n - 2), .ins (n - 4)]
  | m + 1 => badGrow n m ++ [.ins (n - 1 - 2 * m), .copy, .ins (n - 6 - 2 * m)]

theorem badGrow_tree (n m : Nat) (h : 2 * m + 4 ≤ n) : BadTree (n - 2 * m) (n - 2 - 2 * m) (n - 4 - 2 * m) m (grow (badGrow n m)).root := by
  induction m with
  | zero =>
    have l1 : n - 2 < n := by omega
    have l2 : n - 4 < n - 2 := by omega
    have l3 : n - 4 < n := by omega
    have l4 : ¬ n + 2 < n := by omega
    have l5 : n < n + 2 := by omega
    refine ⟨0, 2, 3, none, some 0, some 2, 3, .node 1 (some 0) (n + 2) 1 .nil .nil, ?_, Or.inl rfl, rfl, rfl⟩
    simp [grow, badGrow, grow1, Avl.insert, Avl.new, Tree.insert, Tree.rotateIfNeeded, Tree.height, l1, l2, l3, l4, l5]
  | succ m ih =>
    have := bad_round (d := n - 4 - 2 * (m + 1)) (b := n - 1 - 2 * m) (by omega) (by omega) (by omega) (by omega) _ (ih (by omega))
    have e1 : n - 6 - 2 * m = n - 4 - 2 * (m + 1) := by omega
    have e2 : n - 4 - 2 * m = n - 2 - 2 * (m + 1) := by omega
    have e3 : n - 2 - 2 * m = n - 2 * (m + 1) := by omega
    unfold badGrow
    rw [show grow (badGrow n m ++ [.ins (n - 1 - 2 * m), .copy, .ins (n - 6 - 2 * m)]) =
      ((((grow (badGrow n m)).insert (n - 1 - 2 * m)).1.copy).insert (n - 6 - 2 * m)).1 by unfold grow; rw [List.foldl_append]; rfl,
      e1, ← e2, ← e3]
    rw [← e1] at this ⊢
    exact this

/-- C183 fails as badly as possible: for every `m` there is a program of `2m + 4` insertions with `m` copies after which the
tree has `2m + 4` elements, all different, and is deeper than half their number. -/
theorem C183_counterexample_linear (m : Nat) : ∃ ops : List (GrowOp Nat), ops.length = 3 * m + 4 ∧
    (ops.filter fun o => match o with | .copy => true | _ => false).length = m ∧
    count (grow ops).root = 2 * m + 4 ∧ m + 2 ≤ depth (grow ops).root := by
  refine ⟨badGrow (2 * m + 4) m, ?_, ?_, ?_⟩
  · generalize 2 * m + 4 = n
    induction m with
    | zero => rfl
    | succ m ih => unfold badGrow; rw [List.length_append, ih]; simp; omega
  · generalize 2 * m + 4 = n
    induction m with
    | zero => rfl
    | succ m ih => unfold badGrow; rw [List.filter_append, List.length_append, ih]; simp
  · obtain ⟨ir, ia, ic, pr, pa, pc, hr, D, e, -, dD, cD⟩ := badGrow_tree (2 * m + 4) m (Nat.le_refl _)
    rw [e]
    simp only [count, depth, cD, dD]
    omega

/-- C183 fails for every constant. -/
theorem C183_counterexample : ¬ C183_statement := by
  rintro ⟨c, h⟩
  have hp : 2 * c + 10 ≤ 2 ^ (2 * c + 10) := Nat.le_of_lt Nat.lt_two_pow_self
  obtain ⟨ops, -, -, h2, h3⟩ := C183_counterexample_linear (2 ^ (2 * c + 10) - 3)
  have hd := h ops
  have e : count (grow ops).root + 1 < 2 ^ (2 * c + 10 + 2) := by
    rw [h2, Nat.pow_add _ (2 * c + 10) 2]; generalize 2 ^ (2 * c + 10) = P at *; omega
  have hl : Nat.log2 (count (grow ops).root + 1) < 2 * c + 10 + 2 := (Nat.log2_lt (by omega)).2 e
  have hsq := sq_le_pow (2 * c + 10) (by omega)
  have h4 : c * (Nat.log2 (count (grow ops).root + 1) + 1) ≤ c * (2 * c + 12) := Nat.mul_le_mul_left c (by omega)
  generalize 2 ^ (2 * c + 10) = P at *
  have h5 : (2 * c + 10) * (2 * c + 10) = 2 * (c * (2 * c + 12)) + 16 * c + 100 := by
    have : 2 * c * (2 * c) = 2 * (c * (2 * c)) := by rw [Nat.mul_assoc]
    simp only [Nat.mul_add, Nat.add_mul] at this ⊢
    omega
  omega

/-! ### What holds -/

/-- C183, the part that holds: copies made after the last insertion are as deep as the original, so logarithmic.  Missing: insertions
into copies. -/
theorem C183_copies_partial (xs : List α) (k : Nat) :
    depth (grow (xs.map .ins ++ List.replicate k .copy)).root ≤
      2 * Nat.log2 (count (grow (xs.map .ins ++ List.replicate k .copy)).root + 1) + 1 := by
  induction k with
  | zero =>
    obtain ⟨a, os, h1, h2⟩ := C121_insertions_partial (xs.map .insert) (fun op hop => by
      obtain ⟨x, -, rfl⟩ := List.mem_map.1 hop
      exact Or.inl ⟨x, rfl⟩)
    have : ∀ (xs : List α) (b a : Avl α) os, run b (xs.map .insert) = .ok (a, os) → (xs.map GrowOp.ins).foldl grow1 b = a := by
      intro xs
      induction xs with
      | nil => intro b a os h; injection h with h; injection h
      | cons x xs ih =>
        intro b a os h
        simp only [List.map_cons, run, step, Res.bind_ok] at h
        obtain ⟨⟨a', os'⟩, h3, h4⟩ := Res.bind_eq_ok.1 h
        injection h4 with h4
        injection h4 with h4
        subst h4
        exact ih _ _ _ h3
    simp only [List.replicate_zero, List.append_nil]
    unfold grow
    rw [this xs _ a os h1]
    exact h2
  | succ k ih =>
    rw [List.replicate_succ', ← List.append_assoc]
    generalize xs.map GrowOp.ins ++ List.replicate k GrowOp.copy = ops at *
    have e : grow (ops ++ [.copy]) = (grow ops).copy := by unfold grow; rw [List.foldl_append]; rfl
    obtain ⟨n, hn⟩ := copy_root (grow ops)
    obtain ⟨f1, f2, -⟩ := copy_facts (grow ops).root none n
    rw [e, hn, f1, f2]
    exact ih

/-- Three rounds: ten elements, depth 5, where a balanced tree has depth 4; and the right spine of the tree. -/
example : inorder (grow (badGrow 10 3)).root = [0, 2, 4, 5, 6, 7, 8, 9, 10, 12] ∧ depth (grow (badGrow 10 3)).root = 5 ∧
    depth (grow (badGrow 30 13)).root = 15 ∧ count (grow (badGrow 30 13)).root = 30 := by decide +kernel

end Verif.Avl
