import Verif.Avl.Degenerate

/-!
C171: the number of nodes that the calls of `avl_tree_t` visit (binary_tree.h:480-511, 546-548, 728-745, 853-925, 1007-1009).
The functions are those of Model.lean, together with the number of calls for an existing node.
-/

namespace Verif.Avl
open Spec
set_option linter.unusedSectionVars false

namespace Tree
variable {α : Type}

/-- binary_tree.h:1007-1009 `leftmost`. -/
def leftmostN : Tree α → Nat × Option α
  | nil => (0, none)
  | node _ _ v _ nil _ => (1, some v)
  | node _ _ _ _ (node i p w h l r) _ =>
    let c := leftmostN (node i p w h l r)
    (c.1 + 1, c.2)

variable [LinearOrder α]

/-- binary_tree.h:853-881 `insert`. -/
def insertN (dups : Bool) (fresh : Nat) (x : α) (n : Nat) : Option Nat → Tree α → Nat × Tree α × Bool × Nat
  | par, nil => (0, node fresh par x 1 nil nil, true, (n + 1) % W)
  | _, node i p v h l r =>
    if x < v then
      let (c, l', inserted, n) := insertN dups fresh x n (some i) l
      let t := node i p v h l' r
      (c + 1, if inserted then rotateIfNeeded x t else t, inserted, n)
    else if v < x then
      let (c, r', inserted, n) := insertN dups fresh x n (some i) r
      let t := node i p v h l r'
      (c + 1, if inserted then rotateIfNeeded x t else t, inserted, n)
    else if dups then
      let (c, r', inserted, n) := insertN dups fresh x n (some i) r
      let t := node i p v h l r'
      (c + 1, if inserted then rotateIfNeeded x t else t, inserted, n)
    else (1, node i p v h l r, false, n)

/-- binary_tree.h:891-925 `remove`, with the calls of `leftmost`. -/
def removeN (n : Nat) : Tree α → α → Nat × Tree α × Bool × Nat
  | nil, _ => (0, nil, false, n)
  | node i p v h l r, x =>
    if x < v then
      let (c, l', removed, n) := removeN n l x
      (c + 1, rotateOnRemove (node i p v h l' r), removed, n)
    else if v < x then
      let (c, r', removed, n) := removeN n r x
      (c + 1, rotateOnRemove (node i p v h l r'), removed, n)
    else
      match l, r with
      | nil, nil => (1, nil, true, (n + W - 1) % W)
      | node li lp lv lh ll lr, nil =>
        (1, rotateOnRemove (setParent p (node li lp lv lh ll lr)), true, (n + W - 1) % W)
      | nil, node ri rp rv rh rl rr =>
        (1, rotateOnRemove (setParent p (node ri rp rv rh rl rr)), true, (n + W - 1) % W)
      | node li lp lv lh ll lr, node ri rp rv rh rl rr =>
        match leftmostN (node ri rp rv rh rl rr) with
        | (k, none) => (k + 1, node i p v h (node li lp lv lh ll lr) (node ri rp rv rh rl rr), false, n)  -- not reached
        | (k, some m) =>
          let (c, r', removed, n) := removeN n (node ri rp rv rh rl rr) m
          (c + k + 1, rotateOnRemove (node i p m h (node li lp lv lh ll lr) r'), removed, n)

/-- binary_tree.h:728-745 `contains`. -/
def containsN (x : α) : Tree α → Nat × Bool
  | nil => (0, false)
  | node _ _ v _ l r =>
    if x < v then
      let c := containsN x l
      (c.1 + 1, c.2)
    else if v < x then
      let c := containsN x r
      (c.1 + 1, c.2)
    else (1, decide (x = v))

end Tree

namespace Avl
variable {α : Type} [LinearOrder α]

/-- binary_tree.h:480-484 `insert`. -/
def insertN (a : Avl α) (x : α) : Nat × Avl α × Bool :=
  let (c, t, inserted, n) := a.root.insertN a.dups a.next x a.size none
  (c, { a with root := t, size := n, next := a.next + 1 }, inserted)

/-- binary_tree.h:492-496 `remove`. -/
def removeN (a : Avl α) (x : α) : Nat × Avl α × Bool :=
  let (c, t, removed, n) := a.root.removeN a.size x
  (c, { a with root := t, size := n }, removed)

/-- binary_tree.h:505-511 `remove_all`. -/
def removeAllFuelN : Nat → Avl α → α → Nat → Nat × Option (Avl α × Nat)
  | 0, _, _, _ => (0, none)
  | fuel + 1, a, x, cnt =>
    match a.removeN x with
    | (c, a, true) =>
      let r := removeAllFuelN fuel a x (cnt + 1)
      (c + r.1, r.2)
    | (c, a, false) => (c, some (a, cnt))

/-- binary_tree.h:505-511 `remove_all`. -/
def removeAllN (a : Avl α) (x : α) : Nat × Res (Avl α × Nat) :=
  match removeAllFuelN (nodes a.root + 1) a x 0 with
  | (c, some r) => (c, .ok r)
  | (c, none) => (c, .ub)

/-- binary_tree.h:546-548 `contains`. -/
def containsN (a : Avl α) (x : α) : Nat × Bool := a.root.containsN x

end Avl

/-! ### The results are those of Model.lean -/

variable {α : Type}

theorem leftmostN_same (t : Tree α) : t.leftmostN.2 = t.leftmost := by
  fun_induction Tree.leftmostN t with
  | case1 => rfl
  | case2 => rfl
  | case3 _ _ _ _ _ _ _ _ _ _ _ c ih => rw [Tree.leftmost]; exact ih

variable [LinearOrder α]

theorem insertN_same (dups : Bool) (fresh : Nat) (x : α) (n : Nat) (t : Tree α) : ∀ par,
    (t.insertN dups fresh x n par).2 = t.insert dups fresh x n par := by
  induction t with
  | nil => intro par; rfl
  | node i p v h l r ihl ihr =>
    intro par
    unfold Tree.insertN Tree.insert
    rw [← ihl, ← ihr]
    by_cases c1 : x < v
    · rw [if_pos c1, if_pos c1]
    rw [if_neg c1, if_neg c1]
    by_cases c2 : v < x
    · rw [if_pos c2, if_pos c2]
    rw [if_neg c2, if_neg c2]
    by_cases c3 : dups = true
    · rw [if_pos c3, if_pos c3]
    rw [if_neg c3, if_neg c3]

theorem removeN_same (n : Nat) (t : Tree α) : ∀ x, (t.removeN n x).2 = t.remove n x := by
  induction t with
  | nil => intro x; rfl
  | node i p v h l r ihl ihr =>
    intro x
    unfold Tree.removeN Tree.remove
    by_cases c1 : x < v
    · rw [if_pos c1, if_pos c1, ← ihl]
    rw [if_neg c1, if_neg c1]
    by_cases c2 : v < x
    · rw [if_pos c2, if_pos c2, ← ihr]
    rw [if_neg c2, if_neg c2]
    cases l with
    | nil => cases r <;> rfl
    | node li lp lv lh ll lr =>
      cases r with
      | nil => rfl
      | node ri rp rv rh rl rr =>
        simp only
        rw [← leftmostN_same]
        generalize Tree.leftmostN (.node ri rp rv rh rl rr) = k
        obtain ⟨k, m⟩ := k
        cases m with
        | none => rfl
        | some m => simp only; rw [← ihr]

theorem containsN_same (x : α) (t : Tree α) : (t.containsN x).2 = t.contains x := by
  induction t with
  | nil => rfl
  | node i p v h l r ihl ihr =>
    unfold Tree.containsN Tree.contains
    rw [← ihl, ← ihr]
    by_cases c1 : x < v
    · rw [if_pos c1, if_pos c1]
    rw [if_neg c1, if_neg c1]
    by_cases c2 : v < x
    · rw [if_pos c2, if_pos c2]
    rw [if_neg c2, if_neg c2]

theorem avl_removeN_same (a : Avl α) (x : α) : (a.removeN x).2 = a.remove x := by
  unfold Avl.removeN Avl.remove; rw [← removeN_same]

theorem removeAllFuelN_same (fuel : Nat) : ∀ (a : Avl α) (x : α) cnt,
    (Avl.removeAllFuelN fuel a x cnt).2 = Avl.removeAllFuel fuel a x cnt := by
  induction fuel with
  | zero => intros; rfl
  | succ fuel ih =>
    intro a x cnt
    unfold Avl.removeAllFuelN Avl.removeAllFuel
    rw [← avl_removeN_same]
    generalize a.removeN x = res
    obtain ⟨c, a1, b⟩ := res
    cases b with
    | true => exact ih ..
    | false => rfl

/-- The counting functions compute what the functions of Model.lean compute. -/
theorem C171_same (a : Avl α) (x : α) :
    (a.insertN x).2 = a.insert x ∧ (a.removeN x).2 = a.remove x ∧ (a.removeAllN x).2 = a.removeAll x ∧ (a.containsN x).2 = a.contains x := by
  refine ⟨?_, avl_removeN_same a x, ?_, containsN_same x a.root⟩
  · unfold Avl.insertN Avl.insert; rw [← insertN_same]
  · unfold Avl.removeAllN Avl.removeAll
    rw [← removeAllFuelN_same]
    generalize Avl.removeAllFuelN (Avl.nodes a.root + 1) a x 0 = r
    obtain ⟨c, r⟩ := r
    cases r <;> rfl

/-! ### Bounds -/

theorem leftmostN_le (t : Tree α) : t.leftmostN.1 ≤ depth t := by
  fun_induction Tree.leftmostN t with
  | case1 => exact Nat.zero_le _
  | case2 => simp only [depth]; omega
  | case3 _ _ _ _ _ _ _ _ _ _ _ c ih => rw [depth]; simp only [c]; omega

theorem containsN_le (x : α) (t : Tree α) : (t.containsN x).1 ≤ depth t := by
  induction t with
  | nil => exact Nat.zero_le _
  | node i p v h l r ihl ihr =>
    unfold Tree.containsN
    rw [depth]
    by_cases c1 : x < v
    · rw [if_pos c1]; simp only; omega
    rw [if_neg c1]
    by_cases c2 : v < x
    · rw [if_pos c2]; simp only; omega
    rw [if_neg c2]; simp only; omega

theorem insertN_le (dups : Bool) (fresh : Nat) (x : α) (n : Nat) (t : Tree α) : ∀ par,
    (t.insertN dups fresh x n par).1 ≤ depth t := by
  induction t with
  | nil => intro par; exact Nat.zero_le _
  | node i p v h l r ihl ihr =>
    intro par
    have h1 := ihl (some i)
    have h2 := ihr (some i)
    unfold Tree.insertN
    rw [depth]
    by_cases c1 : x < v
    · rw [if_pos c1]; simp only; omega
    rw [if_neg c1]
    by_cases c2 : v < x
    · rw [if_pos c2]; simp only; omega
    rw [if_neg c2]
    by_cases c3 : dups = true
    · rw [if_pos c3]; simp only; omega
    rw [if_neg c3]; simp only; omega

theorem removeN_le (n : Nat) (t : Tree α) : ∀ x, 2 * (t.removeN n x).1 ≤ depth t * (depth t + 1) := by
  induction t with
  | nil => intro x; exact Nat.zero_le _
  | node i p v h l r ihl ihr =>
    intro x
    have up : ∀ c d e, 2 * c ≤ d * (d + 1) → d ≤ e → 2 * (c + 1) ≤ (e + 1) * (e + 1 + 1) := by
      intro c d e h1 h2
      have h3 : d * (d + 1) ≤ e * (e + 1) := Nat.mul_le_mul h2 (by omega)
      have h4 : (e + 1) * (e + 1 + 1) = e * (e + 1) + 2 * (e + 1) := by rw [Nat.add_mul, Nat.mul_add e, Nat.mul_add 2, Nat.one_mul]; omega
      omega
    unfold Tree.removeN
    rw [depth]
    by_cases c1 : x < v
    · rw [if_pos c1]; exact up _ _ _ (ihl x) (by omega)
    rw [if_neg c1]
    by_cases c2 : v < x
    · rw [if_pos c2]; exact up _ _ _ (ihr x) (by omega)
    rw [if_neg c2]
    have one : ∀ e, 2 * 1 ≤ (e + 1) * (e + 1 + 1) := fun e => Nat.le_trans (up 0 0 e (by omega) (by omega)) (Nat.le_refl _)
    cases l with
    | nil => cases r <;> exact one _
    | node li lp lv lh ll lr =>
      cases r with
      | nil => exact one _
      | node ri rp rv rh rl rr =>
        simp only
        have hk := leftmostN_le (.node ri rp rv rh rl rr)
        generalize Tree.leftmostN (.node ri rp rv rh rl rr) = k at hk
        obtain ⟨k, m⟩ := k
        have more : ∀ c d e, 2 * c ≤ d * (d + 1) → d ≤ e → k ≤ d → 2 * (c + k + 1) ≤ (e + 1) * (e + 1 + 1) := by
          intro c d e h1 h2 h5
          have h3 : d * (d + 1) ≤ e * (e + 1) := Nat.mul_le_mul h2 (by omega)
          have h4 : (e + 1) * (e + 1 + 1) = e * (e + 1) + 2 * (e + 1) := by rw [Nat.add_mul, Nat.mul_add e, Nat.mul_add 2, Nat.one_mul]; omega
          omega
        cases m with
        | none =>
          have := more 0 _ (max (depth (.node li lp lv lh ll lr)) (depth (.node ri rp rv rh rl rr))) (Nat.zero_le _) (by omega) hk
          simp only
          omega
        | some m => exact more _ _ _ (ihr m) (by omega) hk

/-- Removing the least element goes the way of `leftmost`. -/
theorem removeN_least (n : Nat) (t : Tree α) : ∀ m, SSorted (inorder t) → t.leftmostN.2 = some m → (t.removeN n m).1 = t.leftmostN.1 := by
  induction t with
  | nil => intro m _ _; rfl
  | node i p v h l r ihl ihr =>
    intro m hs hm
    rw [inorder, ssorted_iff] at hs
    cases l with
    | nil =>
      simp only [Tree.leftmostN] at hm ⊢
      injection hm with hm
      subst hm
      unfold Tree.removeN
      rw [if_neg (lt_irrefl _), if_neg (lt_irrefl _)]
      cases r <;> rfl
    | node li lp lv lh ll lr =>
      simp only [Tree.leftmostN] at hm ⊢
      have hmem : m ∈ inorder (.node li lp lv lh ll lr) := by
        rw [leftmostN_same, leftmost_eq] at hm
        exact List.mem_of_head? hm
      have hlt := hs.2.2.1 m hmem
      unfold Tree.removeN
      rw [if_pos hlt]
      simp only
      rw [ihl m hs.1 hm]

theorem removeN_strict (n : Nat) (t : Tree α) : ∀ x, SSorted (inorder t) → (t.removeN n x).1 ≤ 2 * depth t - 1 := by
  induction t with
  | nil => intro x _; exact Nat.zero_le _
  | node i p v h l r ihl ihr =>
    intro x hs
    rw [inorder, ssorted_iff] at hs
    have h1 := ihl x hs.1
    have h2 := ihr x hs.2.1
    unfold Tree.removeN
    rw [depth]
    by_cases c1 : x < v
    · rw [if_pos c1]; simp only; omega
    rw [if_neg c1]
    by_cases c2 : v < x
    · rw [if_pos c2]; simp only; omega
    rw [if_neg c2]
    cases l with
    | nil => cases r <;> (simp only; omega)
    | node li lp lv lh ll lr =>
      cases r with
      | nil => simp only; omega
      | node ri rp rv rh rl rr =>
        simp only
        have hk := leftmostN_le (.node ri rp rv rh rl rr)
        have hl := fun m => removeN_least n (.node ri rp rv rh rl rr) m hs.2.1
        generalize Tree.leftmostN (.node ri rp rv rh rl rr) = k at hk hl
        obtain ⟨k, m⟩ := k
        cases m with
        | none => simp only at hk ⊢; omega
        | some m =>
          have := hl m rfl
          simp only at this hk ⊢
          omega

theorem depth_rotateOnRemove {i p v h} {l r : Tree α} (hl : HeightsExact l) (hr : HeightsExact r) :
    depth (Tree.rotateOnRemove (.node i p v h l r)) ≤ max (depth l) (depth r) + 1 := by
  simp only [Tree.rotateOnRemove, height_eq hl, height_eq hr]
  by_cases c1 : depth l = depth r + 2
  · rw [if_pos c1]
    cases l with
    | nil => simp only [depth] at c1; omega
    | node li lp lv lh ll lr =>
      obtain ⟨e0, e1, e2⟩ := hl
      simp only [height_eq e1, height_eq e2]
      simp only [depth] at c1
      by_cases c2 : depth ll = depth lr + 1
      · rw [if_pos c2]
        simp only [Tree.rotateRight, depth]
        omega
      · rw [if_neg c2]
        cases lr with
        | nil => simp only [Tree.doubleRotateRight, Tree.rotateLeft, Tree.rotateRight, depth] at *; omega
        | node => simp only [Tree.doubleRotateRight, Tree.rotateLeft, Tree.rotateRight, depth] at *; omega
  · rw [if_neg c1]
    by_cases c3 : depth r = depth l + 2
    · rw [if_pos c3]
      cases r with
      | nil => simp only [depth] at c3; omega
      | node ri rp rv rh rl rr =>
        obtain ⟨e0, e1, e2⟩ := hr
        simp only [height_eq e1, height_eq e2]
        simp only [depth] at c3
        by_cases c2 : depth rr = depth rl + 1
        · rw [if_pos c2]
          simp only [Tree.rotateLeft, depth]
          omega
        · rw [if_neg c2]
          cases rl with
          | nil => simp only [Tree.doubleRotateLeft, Tree.rotateLeft, Tree.rotateRight, depth] at *; omega
          | node => simp only [Tree.doubleRotateLeft, Tree.rotateLeft, Tree.rotateRight, depth] at *; omega
    · rw [if_neg c3]
      simp only [depth]
      omega

/-- A removal does not make the tree deeper. -/
theorem depth_remove (n : Nat) (t : Tree α) : ∀ x, HeightsExact t → depth (t.remove n x).1 ≤ depth t := by
  induction t with
  | nil => intro x _; exact Nat.le_refl _
  | node i p v h l r ihl ihr =>
    intro x hh
    obtain ⟨e0, e1, e2⟩ := hh
    have h1 := ihl x e1
    have h2 := ihr x e2
    unfold Tree.remove
    by_cases c1 : x < v
    · rw [if_pos c1]
      have := depth_rotateOnRemove (i := i) (p := p) (v := v) (h := h) (exact_remove n l x e1) e2
      simp only [depth] at this ⊢
      omega
    rw [if_neg c1]
    by_cases c2 : v < x
    · rw [if_pos c2]
      have := depth_rotateOnRemove (i := i) (p := p) (v := v) (h := h) e1 (exact_remove n r x e2)
      simp only [depth] at this ⊢
      omega
    rw [if_neg c2]
    cases l with
    | nil =>
      cases r with
      | nil => exact Nat.zero_le _
      | node ri rp rv rh rl rr =>
        have := depth_rotateOnRemove (i := ri) (p := p) (v := rv) (h := rh) e2.2.1 e2.2.2
        simp only [Tree.setParent, depth] at this ⊢
        omega
    | node li lp lv lh ll lr =>
      cases r with
      | nil =>
        have := depth_rotateOnRemove (i := li) (p := p) (v := lv) (h := lh) e1.2.1 e1.2.2
        simp only [Tree.setParent, depth] at this ⊢
        omega
      | node ri rp rv rh rl rr =>
        simp only
        cases Tree.leftmost (.node ri rp rv rh rl rr) with
        | none => exact Nat.le_refl _
        | some m =>
          have h3 := ihr m e2
          have := depth_rotateOnRemove (i := i) (p := p) (v := m) (h := h) e1 (exact_remove n (.node ri rp rv rh rl rr) m e2)
          simp only
          rw [depth]
          omega

/-- `remove_all` costs one removal for each element removed, and one more. -/
theorem removeAllFuelN_le (P : Avl α → Prop) (x : α) (B : Nat) (hrem : ∀ a, P a → P (a.remove x).1) (hB : ∀ a, P a → (a.removeN x).1 ≤ B)
    (fuel : Nat) : ∀ (a : Avl α) cnt a' k, P a → Avl.removeAllFuel fuel a x cnt = some (a', k) →
    (Avl.removeAllFuelN fuel a x cnt).1 + cnt * B ≤ (k + 1) * B := by
  induction fuel with
  | zero => intro a cnt a' k _ h; cases h
  | succ fuel ih =>
    intro a cnt a' k h hr
    have h1 := hrem a h
    have h2 := hB a h
    have h3 := avl_removeN_same a x
    unfold Avl.removeAllFuel at hr
    unfold Avl.removeAllFuelN
    generalize a.remove x = res at *
    generalize a.removeN x = resC at *
    obtain ⟨c, a1, rem⟩ := resC
    simp only at h3 h2
    subst h3
    cases rem with
    | true =>
      have := ih a1 (cnt + 1) a' k h1 hr
      rw [Nat.add_mul, Nat.one_mul] at this
      simp only
      omega
    | false =>
      simp only at hr ⊢
      injection hr with hr
      injection hr with _ hr
      subst hr
      rw [Nat.add_mul, Nat.one_mul]
      omega

theorem removeAllN_le (P : Avl α → Prop) (x : α) (B : Nat) (hrem : ∀ a, P a → P (a.remove x).1) (hB : ∀ a, P a → (a.removeN x).1 ≤ B)
    {a : Avl α} {r : Avl α × Nat} (h : P a) (hr : a.removeAll x = .ok r) : (a.removeAllN x).1 ≤ (r.2 + 1) * B := by
  unfold Avl.removeAll at hr
  cases hf : Avl.removeAllFuel (Avl.nodes a.root + 1) a x 0 with
  | none => rw [hf] at hr; cases hr
  | some q =>
    rw [hf] at hr
    simp only [Res.ok.injEq] at hr
    subst hr
    have := removeAllFuelN_le P x B hrem hB _ a 0 q.1 q.2 h hf
    have e : (a.removeAllN x).1 = (Avl.removeAllFuelN (Avl.nodes a.root + 1) a x 0).1 := by
      unfold Avl.removeAllN
      generalize Avl.removeAllFuelN (Avl.nodes a.root + 1) a x 0 = w
      obtain ⟨c, w⟩ := w
      cases w <;> rfl
    rw [e]
    omega

/-! ### C171 -/

/-- C171: `contains`, `insert` and `remove` visit `O(log n)` nodes of a tree with `n` elements, and `remove_all` (documented as
`O(repeated_values * log(n))`) as many for each value it removes and once more. -/
def C171_statement : Prop :=
  ∃ c, ∀ (ops : List (Op Nat)), (∀ op ∈ ops, (∃ x, op = .insert x) ∨ ∃ x, op = .remove x) →
    ∀ a os, run (Avl.new : Avl Nat) ops = .ok (a, os) → ∀ x,
      (a.containsN x).1 ≤ c * (Nat.log2 (Spec.count a.root + 1) + 1) ∧
      (a.insertN x).1 ≤ c * (Nat.log2 (Spec.count a.root + 1) + 1) ∧
      (a.removeN x).1 ≤ c * (Nat.log2 (Spec.count a.root + 1) + 1) ∧
      ∀ r, a.removeAll x = .ok r → (a.removeAllN x).1 ≤ (r.2 + 1) * (c * (Nat.log2 (Spec.count a.root + 1) + 1))

/-- C171 (part): after every history of calls, `contains` and `insert` visit at most as many nodes as the tree is deep, and `remove` and
each round of `remove_all` at most `d (d + 1) / 2` for the depth `d`, or `2 d - 1` if duplicates were never allowed.
Missing: that the depth is logarithmic, which fails (`C171_counterexample`). -/
theorem C171_depth_partial (ops : List (Op α)) :
    ∃ a os, run (Avl.new : Avl α) ops = .ok (a, os) ∧ ∀ x,
      (a.containsN x).1 ≤ depth a.root ∧ (a.insertN x).1 ≤ depth a.root ∧
      2 * (a.removeN x).1 ≤ depth a.root * (depth a.root + 1) ∧
      ∃ r, a.removeAll x = .ok r ∧ 2 * (a.removeAllN x).1 ≤ (r.2 + 1) * (depth a.root * (depth a.root + 1)) ∧
      (Op.enableDuplicates ∉ ops →
        (a.removeN x).1 ≤ 2 * depth a.root - 1 ∧ (a.removeAllN x).1 ≤ (r.2 + 1) * (2 * depth a.root - 1)) := by
  obtain ⟨a, h1, h2⟩ := sim_run ops (sim_new (α := α))
  have hex : HeightsExact a.root := run_exact (a := (Avl.new : Avl α)) trivial h1
  refine ⟨a, _, h1, fun x => ⟨containsN_le x a.root, insertN_le .., removeN_le .., ?_⟩⟩
  obtain ⟨a', h3, h4⟩ := sim_step h2 (.removeAll x)
  simp only [step] at h3
  rw [Res.bind_eq_ok] at h3
  obtain ⟨r, hr, -⟩ := h3
  refine ⟨r, hr, ?_, fun hops => ?_⟩
  · have ev : depth a.root * (depth a.root + 1) = 2 * (depth a.root * (depth a.root + 1) / 2) := by
      have h0 : ∀ d : Nat, d * (d + 1) % 2 = 0 := by
        intro d
        rw [Nat.mul_mod]
        rcases Nat.mod_two_eq_zero_or_one d with h | h
        · rw [h]; simp
        · rw [show (d + 1) % 2 = 0 by omega]; simp
      have := h0 (depth a.root)
      omega
    have := removeAllN_le (fun b => HeightsExact b.root ∧ depth b.root ≤ depth a.root) x (depth a.root * (depth a.root + 1) / 2)
      (fun b hb => ⟨exact_remove b.size b.root x hb.1, Nat.le_trans (depth_remove b.size b.root x hb.1) hb.2⟩)
      (fun b hb => by
        have k1 := removeN_le b.size b.root x
        have k2 : depth b.root * (depth b.root + 1) ≤ depth a.root * (depth a.root + 1) := Nat.mul_le_mul hb.2 (by omega)
        have k3 : (b.removeN x).1 = (b.root.removeN b.size x).1 := rfl
        omega) ⟨hex, Nat.le_refl _⟩ hr
    rw [ev, Nat.mul_left_comm]
    omega
  · have hss : SSorted (inorder a.root) := by
      obtain ⟨a1, os1, g1, -, g3⟩ := C30_sorted ops
      rw [h1] at g1
      injection g1 with g1
      injection g1 with g1
      subst g1
      exact g3 hops
    refine ⟨removeN_strict a.size a.root x hss, ?_⟩
    exact removeAllN_le (fun b => HeightsExact b.root ∧ depth b.root ≤ depth a.root ∧ SSorted (inorder b.root)) x _
      (fun b hb => ⟨exact_remove b.size b.root x hb.1, Nat.le_trans (depth_remove b.size b.root x hb.1) hb.2.1,
        (remove_spec b.size b.root x hb.2.2.sorted).2.2.2.2 hb.2.2⟩)
      (fun b hb => by
        have k1 := removeN_strict b.size b.root x hb.2.2
        have k3 : (b.removeN x).1 = (b.root.removeN b.size x).1 := rfl
        omega) ⟨hex, Nat.le_refl _, hss⟩ hr

/-- C171: after insertions only, and with duplicates disabled, all calls are logarithmic. -/
theorem C171_insertions_partial (ops : List (Op α)) (hops : ∀ op ∈ ops, (∃ x, op = .insert x) ∨ op = .clear) :
    ∃ a os, run (Avl.new : Avl α) ops = .ok (a, os) ∧ ∀ x,
      (a.containsN x).1 ≤ 2 * Nat.log2 (Spec.count a.root + 1) + 1 ∧ (a.insertN x).1 ≤ 2 * Nat.log2 (Spec.count a.root + 1) + 1 ∧
      (a.removeN x).1 ≤ 4 * Nat.log2 (Spec.count a.root + 1) + 1 ∧
      ∃ r, a.removeAll x = .ok r ∧ (a.removeAllN x).1 ≤ (r.2 + 1) * (4 * Nat.log2 (Spec.count a.root + 1) + 1) := by
  obtain ⟨a, os, h1, h2⟩ := C121_insertions_partial ops hops
  obtain ⟨a', os', h3, h4⟩ := C171_depth_partial ops
  rw [h1] at h3
  injection h3 with h3
  injection h3 with h3
  subst h3
  refine ⟨a, os, h1, fun x => ?_⟩
  obtain ⟨k1, k2, k3, r, k4, k5, k6⟩ := h4 x
  obtain ⟨k7, k8⟩ := k6 fun hop => by
    rcases hops _ hop with ⟨y, hy⟩ | hy <;> cases hy
  refine ⟨by omega, by omega, by omega, r, k4, Nat.le_trans k8 (Nat.mul_le_mul_left _ (by omega))⟩

/-- Every call with a large value visits the whole spine. -/
theorem spine_cost {b : Nat} {In : Tree Nat → Prop} (x : Nat) (hx : b ≤ x) (dups : Bool) (fresh n : Nat) :
    ∀ {m : Nat} {t : Tree Nat} (par : Option Nat), Spine b In m t →
      m ≤ (t.containsN x).1 ∧ m ≤ (t.insertN dups fresh x n par).1 ∧ m ≤ (t.removeN n x).1 := by
  intro m
  induction m with
  | zero => intro t par _; exact ⟨Nat.zero_le _, Nat.zero_le _, Nat.zero_le _⟩
  | succ m ih =>
    rintro t par ⟨i, p, v, r, rfl, hv, hr⟩
    obtain ⟨h1, h2, h3⟩ := ih (some i) hr
    have c1 : ¬ x < v := by omega
    have c2 : v < x := by omega
    refine ⟨?_, ?_, ?_⟩
    · unfold Tree.containsN; rw [if_neg c1, if_pos c2]; simp only; omega
    · unfold Tree.insertN; rw [if_neg c1, if_pos c2]; simp only; omega
    · unfold Tree.removeN; rw [if_neg c1, if_pos c2]; simp only; omega

/-- C171 fails as badly as possible: for every `m` there is a history of insertions and removals after which the tree has `m + 8` elements
and every call with a value of at least `21 m` visits `m` nodes or more. -/
theorem C171_counterexample (m : Nat) : ∃ a os, run (Avl.new : Avl Nat) (badOps m) = .ok (a, os) ∧ Spec.count a.root = m + 8 ∧
    ∀ x, 21 * m ≤ x → m ≤ (a.containsN x).1 ∧ m ≤ (a.insertN x).1 ∧ m ≤ (a.removeN x).1 ∧ m ≤ (a.removeAllN x).1 := by
  obtain ⟨a, os, h1, -, h3⟩ := bad_run m
  obtain ⟨c1, c2⟩ := spine_count (c := 8) (d := 4) (fun t ht => by
    obtain ⟨e1, e2⟩ := rel_count ht
    exact ⟨e1, e2⟩) h3
  refine ⟨a, os, h1, c1, fun x hx => ?_⟩
  obtain ⟨k1, k2, k3⟩ := spine_cost x hx a.dups a.next a.size none h3
  refine ⟨k1, k2, k3, ?_⟩
  have k4 : (a.removeN x).1 = (a.root.removeN a.size x).1 := rfl
  rw [← k4] at k3
  unfold Avl.removeAllN Avl.removeAllFuelN
  generalize a.removeN x = q at k3
  obtain ⟨c, a1, b⟩ := q
  cases b with
  | true =>
    simp only at k3 ⊢
    generalize Avl.removeAllFuelN (Avl.nodes a.root) a1 x (0 + 1) = w
    obtain ⟨c', w⟩ := w
    cases w <;> (simp only; omega)
  | false => exact k3

theorem C171_not : ¬ C171_statement := by
  rintro ⟨c, h⟩
  have hp : 2 * c + 10 ≤ 2 ^ (2 * c + 10) := Nat.le_of_lt Nat.lt_two_pow_self
  obtain ⟨a, os, h1, h2, h3⟩ := C171_counterexample (2 ^ (2 * c + 10) - 9)
  have hd := (h _ (badOps_ops _).2 a os h1 (21 * (2 ^ (2 * c + 10) - 9))).1
  have h3 := (h3 _ (Nat.le_refl _)).1
  have e : Spec.count a.root + 1 = 2 ^ (2 * c + 10) := by rw [h2]; omega
  rw [e, Nat.log2_two_pow] at hd
  have hd := Nat.le_trans h3 hd
  have hsq := sq_le_pow (2 * c + 10) (by omega)
  generalize 2 ^ (2 * c + 10) = P at *
  have h5 : (2 * c + 10) * (2 * c + 10) = 2 * (c * (2 * c + 10 + 1)) + 18 * c + 100 := by
    have : 2 * c * (2 * c) = 2 * (c * (2 * c)) := by rw [Nat.mul_assoc]
    simp only [Nat.mul_add, Nat.add_mul, Nat.mul_one] at this ⊢
    omega
  omega

/-- Spec: the values on the way from the root to `x`, up to an equal value, or (`on`) past equal values to the right. -/
def way (on : Bool) (x : α) : Tree α → List α
  | .nil => []
  | .node _ _ v _ l r => v :: (if x < v then way on x l else if v < x ∨ on = true then way on x r else [])

theorem way_insert (dups : Bool) (fresh : Nat) (x : α) (n : Nat) (t : Tree α) : ∀ par,
    (t.insertN dups fresh x n par).1 = (way dups x t).length := by
  induction t with
  | nil => intro par; rfl
  | node i p v h l r ihl ihr =>
    intro par
    unfold Tree.insertN way
    by_cases c1 : x < v
    · rw [if_pos c1, if_pos c1]
      simp only [ihl, List.length_cons]
    rw [if_neg c1, if_neg c1]
    by_cases c2 : v < x
    · rw [if_pos c2, if_pos (.inl c2)]
      simp only [ihr, List.length_cons]
    rw [if_neg c2]
    by_cases c3 : dups = true
    · rw [if_pos c3, if_pos (.inr c3)]
      simp only [ihr, List.length_cons]
    rw [if_neg c3, if_neg (by rintro (h | h) <;> contradiction)]
    rfl

theorem way_contains (x : α) (t : Tree α) : (t.containsN x).1 = (way false x t).length := by
  induction t with
  | nil => rfl
  | node i p v h l r ihl ihr =>
    unfold Tree.containsN way
    by_cases c1 : x < v
    · rw [if_pos c1, if_pos c1]
      simp only [ihl, List.length_cons]
    rw [if_neg c1, if_neg c1]
    by_cases c2 : v < x
    · rw [if_pos c2, if_pos (.inl c2)]
      simp only [ihr, List.length_cons]
    rw [if_neg c2, if_neg (by rintro (h | h) <;> contradiction)]
    rfl

theorem way_remove (n : Nat) (t : Tree α) : ∀ x, (way false x t).length ≤ (t.removeN n x).1 := by
  induction t with
  | nil => intro x; exact Nat.le_refl _
  | node i p v h l r ihl ihr =>
    intro x
    unfold Tree.removeN way
    by_cases c1 : x < v
    · rw [if_pos c1, if_pos c1]
      have := ihl x
      simp only [List.length_cons]
      omega
    rw [if_neg c1, if_neg c1]
    by_cases c2 : v < x
    · rw [if_pos c2, if_pos (.inl c2)]
      have := ihr x
      simp only [List.length_cons]
      omega
    rw [if_neg c2, if_neg (by rintro (h | h) <;> contradiction)]
    cases l with
    | nil => cases r <;> exact Nat.le_refl _
    | node li lp lv lh ll lr =>
      cases r with
      | nil => exact Nat.le_refl _
      | node ri rp rv rh rl rr =>
        simp only
        generalize Tree.leftmostN (.node ri rp rv rh rl rr) = k
        obtain ⟨k, m⟩ := k
        cases m with
        | none => simp
        | some m => simp

theorem removeAllN_cnt (x : α) : ∀ (f : Nat) (a : Avl α) (cnt cnt' : Nat),
    (Avl.removeAllFuelN f a x cnt).1 = (Avl.removeAllFuelN f a x cnt').1 := by
  intro f
  induction f with
  | zero => intros; rfl
  | succ f ih =>
    intro a cnt cnt'
    unfold Avl.removeAllFuelN
    generalize a.removeN x = res
    obtain ⟨c, a1, b⟩ := res
    cases b with
    | true => simp only; rw [ih a1 (cnt + 1) (cnt' + 1)]
    | false => rfl

/-- C171: the exact numbers. `contains` and `insert` visit the nodes on the way to the value, `remove` these and possibly more;
`remove_all` visits the nodes of as many calls of `remove` as succeed and of the one that fails. -/
theorem C171_exact (a : Avl α) (x : α) :
    (a.containsN x).1 = (way false x a.root).length ∧ (a.insertN x).1 = (way a.dups x a.root).length ∧
    (way false x a.root).length ≤ (a.removeN x).1 ∧
    (Sorted (inorder a.root) → (a.removeAllN x).1 = (a.removeN x).1 + (if (a.remove x).2 then ((a.remove x).1.removeAllN x).1 else 0)) := by
  refine ⟨way_contains x a.root, way_insert .., way_remove .., fun hs => ?_⟩
  have hfst : ∀ b : Avl α, (b.removeAllN x).1 = (Avl.removeAllFuelN (Avl.nodes b.root + 1) b x 0).1 := by
    intro b
    unfold Avl.removeAllN
    generalize Avl.removeAllFuelN (Avl.nodes b.root + 1) b x 0 = r
    obtain ⟨c, r⟩ := r
    cases r <;> rfl
  rw [hfst a]
  have hspec := remove_spec a.size a.root x hs
  have hsame := avl_removeN_same a x
  unfold Avl.removeAllFuelN
  generalize hr : a.removeN x = res at *
  obtain ⟨c, a1, b⟩ := res
  simp only at hsame
  rw [← hsame]
  have h1 : a1.root = (a.root.remove a.size x).1 := by
    have := congrArg (fun p : Avl α × Bool => p.1.root) hsame
    exact this
  have h2 : b = (a.root.remove a.size x).2.1 := by
    have := congrArg (fun p : Avl α × Bool => p.2) hsame
    exact this
  cases b with
  | false => simp
  | true =>
    simp only [if_true]
    obtain ⟨-, g2, -, g4, -⟩ := hspec
    have hperm := (g2 h2.symm).1
    have hlen : Avl.nodes a1.root + 1 = Avl.nodes a.root := by
      rw [nodes_eq, nodes_eq, h1]
      exact hperm.length_eq.symm
    rw [hfst a1, hlen]
    rw [removeAllN_cnt x _ a1 (0 + 1) 0]

/-- With duplicates `2 d - 1` is too little: of 20 equal values, in a tree of depth 6, `remove` visits 19 nodes to remove one, because it
searches the least element again at each level of the right subtrees. Five equal values meet the bound `d (d + 1) / 2`. -/
theorem C171_duplicates :
    Spec.depth (build true (List.replicate 20 0)).root = 6 ∧ ((build true (List.replicate 20 0)).removeN 0).1 = 19 ∧
    Spec.depth (build true (List.replicate 5 0)).root = 3 ∧ ((build true (List.replicate 5 0)).removeN 0).1 = 6 := by
  decide +kernel

/-- Seven values in a perfect tree of depth 3: the root is removed by way of the least greater value. -/
example : let a := build false [4, 2, 6, 1, 3, 5, 7]
    ((a.containsN 7).1, (a.insertN 8).1, (a.removeN 4).1, (a.removeN 7).1, (a.removeAllN 4).1) = (3, 3, 5, 3, 8) := by decide +kernel

end Verif.Avl
