import Verif.Avl.Refine

/-!
AVL trees of elements whose comparisons are not those of a linear order, such as floating point numbers with NaN
(structures/binary_tree.h:471-925), and C163.

As `Verif/Avl/Model.lean`, but `value < element`, `value > element` and `value == element` are arbitrary functions.
-/

namespace Verif.Avl
open Spec
variable {α β : Type}

/-- The comparisons of a value with an element: `<`, `>`, `==`. -/
structure Cmp (α : Type) where
  lt : α → α → Bool
  gt : α → α → Bool
  eq : α → α → Bool

namespace Tree

/-- binary_tree.h:788-808 `rotate_if_needed`. -/
def rotateIfNeededC (c : Cmp α) (x : α) : Tree α → Tree α
  | nil => nil
  | node i p v _ l r =>
    let t := node i p v (max l.height r.height + 1) l r
    if l.height = r.height + 2 then
      match l with
      | node _ _ lv _ _ _ => if c.lt x lv then rotateRight t else doubleRotateRight t
      | nil => t  -- not reached: a null child has height 0
    else if r.height = l.height + 2 then
      match r with
      | node _ _ rv _ _ _ => if c.gt x rv then rotateLeft t else doubleRotateLeft t
      | nil => t  -- not reached
    else t

/-- binary_tree.h:853-881 `insert` with l.754-779 `insert_left`, `insert_right`. -/
def insertC (c : Cmp α) (dups : Bool) (fresh : Nat) (x : α) (n : Nat) : Option Nat → Tree α → Tree α × Bool × Nat
  | par, nil => (node fresh par x 1 nil nil, true, (n + 1) % W)
  | _, node i p v h l r =>
    if c.lt x v then
      let (l', inserted, n) := insertC c dups fresh x n (some i) l
      let t := node i p v h l' r
      (if inserted then rotateIfNeededC c x t else t, inserted, n)
    else if c.gt x v then
      let (r', inserted, n) := insertC c dups fresh x n (some i) r
      let t := node i p v h l r'
      (if inserted then rotateIfNeededC c x t else t, inserted, n)
    else if dups then
      let (r', inserted, n) := insertC c dups fresh x n (some i) r
      let t := node i p v h l r'
      (if inserted then rotateIfNeededC c x t else t, inserted, n)
    else (node i p v h l r, false, n)

/-- binary_tree.h:891-925 `remove`. -/
def removeC (c : Cmp α) (n : Nat) : Tree α → α → Tree α × Bool × Nat
  | nil, _ => (nil, false, n)
  | node i p v h l r, x =>
    if c.lt x v then
      let (l', removed, n) := removeC c n l x
      (rotateOnRemove (node i p v h l' r), removed, n)
    else if c.gt x v then
      let (r', removed, n) := removeC c n r x
      (rotateOnRemove (node i p v h l r'), removed, n)
    else
      match l, r with
      | nil, nil => (nil, true, (n + W - 1) % W)
      | node li lp lv lh ll lr, nil =>
        (rotateOnRemove (setParent p (node li lp lv lh ll lr)), true, (n + W - 1) % W)
      | nil, node ri rp rv rh rl rr =>
        (rotateOnRemove (setParent p (node ri rp rv rh rl rr)), true, (n + W - 1) % W)
      | node li lp lv lh ll lr, node ri rp rv rh rl rr =>
        match leftmost (node ri rp rv rh rl rr) with
        | none => (node i p v h (node li lp lv lh ll lr) (node ri rp rv rh rl rr), false, n)  -- not reached
        | some m =>
          let (r', removed, n) := removeC c n (node ri rp rv rh rl rr) m
          (rotateOnRemove (node i p m h (node li lp lv lh ll lr) r'), removed, n)

/-- binary_tree.h:728-745 `contains`. -/
def containsC (c : Cmp α) (x : α) : Tree α → Bool
  | nil => false
  | node _ _ v _ l r =>
    if c.lt x v then containsC c x l
    else if c.gt x v then containsC c x r
    else c.eq x v

end Tree

namespace Avl

/-- binary_tree.h:480-484 `insert`. -/
def insertC (c : Cmp α) (a : Avl α) (x : α) : Avl α × Bool :=
  let (t, inserted, n) := a.root.insertC c a.dups a.next x a.size none
  ({ a with root := t, size := n, next := a.next + 1 }, inserted)

/-- binary_tree.h:492-496 `remove`. -/
def removeC (c : Cmp α) (a : Avl α) (x : α) : Avl α × Bool :=
  let (t, removed, n) := a.root.removeC c a.size x
  ({ a with root := t, size := n }, removed)

/-- binary_tree.h:505-511 `remove_all`; the loop runs at most `fuel` times, `none` if that is not enough. -/
def removeAllFuelC (c : Cmp α) : Nat → Avl α → α → Nat → Option (Avl α × Nat)
  | 0, _, _, _ => none
  | fuel + 1, a, x, cnt =>
    match a.removeC c x with
    | (a, true) => removeAllFuelC c fuel a x (cnt + 1)
    | (a, false) => some (a, cnt)

/-- binary_tree.h:505-511 `remove_all`: UB (does not terminate) if more rounds than nodes were needed. -/
def removeAllC (c : Cmp α) (a : Avl α) (x : α) : Res (Avl α × Nat) :=
  match removeAllFuelC c (nodes a.root + 1) a x 0 with
  | some r => .ok r
  | none => .ub

/-- binary_tree.h:546-548 `contains`. -/
def containsC (c : Cmp α) (a : Avl α) (x : α) : Bool := a.root.containsC c x

end Avl

/-- One call. -/
def stepC (c : Cmp α) (a : Avl α) : Op α → Res (Avl α × Out)
  | .insert x => .ok ((a.insertC c x).1, .bool (a.insertC c x).2)
  | .remove x => .ok ((a.removeC c x).1, .bool (a.removeC c x).2)
  | .removeAll x => do let (a, k) ← a.removeAllC c x; .ok (a, .count k)
  | .clear => .ok (a.clear, .unit)
  | .enableDuplicates => .ok ({ a with dups := true }, .unit)
  | .disableDuplicates => .ok ({ a with dups := false }, .unit)

/-- A history of calls. -/
def runC (c : Cmp α) (a : Avl α) : List (Op α) → Res (Avl α × List Out)
  | [] => .ok (a, [])
  | op :: ops => do
    let (a, o) ← stepC c a op
    let (a, os) ← runC c a ops
    .ok (a, o :: os)

/-! ### Arbitrary comparisons -/

open Tree

theorem inorder_rotateIfNeededC (c : Cmp α) (x : α) (t : Tree α) : inorder (rotateIfNeededC c x t) = inorder t := by
  unfold rotateIfNeededC
  split
  · rfl
  · simp only
    split
    · split
      · split
        · rw [inorder_rotateRight]; rfl
        · rw [inorder_doubleRotateRight]; rfl
      · rfl
    · split
      · split
        · split
          · rw [inorder_rotateLeft]; rfl
          · rw [inorder_doubleRotateLeft]; rfl
        · rfl
      · rfl

theorem exact_rotateIfNeededC (c : Cmp α) {i p v h} {l r : Tree α} (x : α) (hl : HeightsExact l) (hr : HeightsExact r) :
    HeightsExact (rotateIfNeededC c x (.node i p v h l r)) := by
  have hself : HeightsExact (.node i p v (max l.height r.height + 1) l r) := by
    rw [height_eq hl, height_eq hr]; exact ⟨rfl, hl, hr⟩
  simp only [rotateIfNeededC]
  split
  · split
    · split
      · exact exact_rotateRight hl hr (.inl (by simp))
      · exact exact_doubleRotateRight hl hr (by simp)
    · exact hself
  · split
    · split
      · split
        · exact exact_rotateLeft hl hr (.inl (by simp))
        · exact exact_doubleRotateLeft hl hr (by simp)
      · exact hself
    · exact hself

/-- `insert` with any comparisons: one new element somewhere, or no change. -/
theorem insertC_spec (c : Cmp α) (dups : Bool) (fresh : Nat) (x : α) (n : Nat) (t : Tree α) : ∀ par, HeightsExact t →
    let res := t.insertC c dups fresh x n par
    HeightsExact res.1 ∧ (res.2.1 = true → (∃ l1 l2, inorder t = l1 ++ l2 ∧ inorder res.1 = l1 ++ x :: l2) ∧ res.2.2 = (n + 1) % W) ∧
    (res.2.1 = false → res.1 = t ∧ res.2.2 = n) := by
  induction t with
  | nil => intro par _; exact ⟨by simp [Tree.insertC, HeightsExact, depth], fun _ => ⟨⟨[], [], rfl, rfl⟩, rfl⟩, fun h => by (cases h)⟩
  | node i p v h l r ihl ihr =>
    intro par hh
    obtain ⟨h1, hl, hr⟩ := hh
    have right : let res := r.insertC c dups fresh x n (some i)
        HeightsExact (if res.2.1 then rotateIfNeededC c x (.node i p v h l res.1) else .node i p v h l res.1) ∧
        (res.2.1 = true → (∃ l1 l2, inorder (.node i p v h l r) = l1 ++ l2 ∧
          inorder (if res.2.1 then rotateIfNeededC c x (.node i p v h l res.1) else .node i p v h l res.1) = l1 ++ x :: l2) ∧
          res.2.2 = (n + 1) % W) ∧
        (res.2.1 = false → (if res.2.1 then rotateIfNeededC c x (.node i p v h l res.1) else .node i p v h l res.1) = .node i p v h l r ∧
          res.2.2 = n) := by
      obtain ⟨a, b, d⟩ := ihr (some i) hr
      generalize r.insertC c dups fresh x n (some i) = res at *
      obtain ⟨r', ins, n'⟩ := res
      simp only at *
      cases ins with
      | true =>
        refine ⟨exact_rotateIfNeededC c (h := h) x hl a, fun _ => ?_, fun h' => by (cases h')⟩
        obtain ⟨⟨l1, l2, e1, e2⟩, e3⟩ := b rfl
        refine ⟨⟨inorder l ++ v :: l1, l2, by simp [inorder, e1], ?_⟩, e3⟩
        simp only [if_true]
        rw [inorder_rotateIfNeededC]
        simp [inorder, e2]
      | false => obtain ⟨e1, e2⟩ := d rfl; subst e1 e2; exact ⟨⟨h1, hl, hr⟩, fun h' => by (cases h'), fun _ => ⟨rfl, rfl⟩⟩
    simp only [Tree.insertC]
    by_cases c1 : c.lt x v = true
    · simp only [if_pos c1]
      obtain ⟨a, b, d⟩ := ihl (some i) hl
      generalize l.insertC c dups fresh x n (some i) = res at *
      obtain ⟨l', ins, n'⟩ := res
      simp only at *
      cases ins with
      | true =>
        refine ⟨exact_rotateIfNeededC c (h := h) x a hr, fun _ => ?_, fun h' => by (cases h')⟩
        obtain ⟨⟨l1, l2, e1, e2⟩, e3⟩ := b rfl
        refine ⟨⟨l1, l2 ++ v :: inorder r, by simp [inorder, e1], ?_⟩, e3⟩
        simp only [if_true]
        rw [inorder_rotateIfNeededC]
        simp [inorder, e2]
      | false => obtain ⟨e1, e2⟩ := d rfl; subst e1 e2; exact ⟨⟨h1, hl, hr⟩, fun h' => by (cases h'), fun _ => ⟨rfl, rfl⟩⟩
    · simp only [if_neg c1]
      by_cases c2 : c.gt x v = true
      · simp only [if_pos c2]; exact right
      · simp only [if_neg c2]
        by_cases c3 : dups = true
        · simp only [if_pos c3]; exact right
        · simp only [if_neg c3]
          exact ⟨⟨h1, hl, hr⟩, fun h' => by (cases h'), fun _ => ⟨by trivial, by trivial⟩⟩

/-- `remove` with any comparisons: it reports whether the number of elements has become less by one, and adds none. -/
theorem removeC_spec (c : Cmp α) (n : Nat) (t : Tree α) : ∀ x, HeightsExact t →
    let res := t.removeC c n x
    HeightsExact res.1 ∧ (∀ v ∈ inorder res.1, v ∈ inorder t) ∧
    (res.2.1 = true → (inorder t).length = (inorder res.1).length + 1 ∧ res.2.2 = (n + W - 1) % W) ∧
    (res.2.1 = false → (inorder res.1).length = (inorder t).length ∧ res.2.2 = n) := by
  induction t with
  | nil =>
    intro x _
    exact ⟨trivial, fun v h => h, fun h => by (cases h), fun _ => ⟨rfl, rfl⟩⟩
  | node i p v h l r ihl ihr =>
    intro x hh
    obtain ⟨h1, hl, hr⟩ := hh
    unfold Tree.removeC
    by_cases c1 : c.lt x v = true
    · simp only [if_pos c1]
      obtain ⟨a, b, d, e⟩ := ihl x hl
      generalize l.removeC c n x = res at *
      obtain ⟨l', rem, n'⟩ := res
      simp only [inorder_rotateOnRemove] at *
      refine ⟨exact_rotateOnRemove (h := h) a hr, fun w hw => ?_, fun hr' => ?_, fun hr' => ?_⟩
      · simp only [inorder, List.mem_append, List.mem_cons] at hw ⊢
        rcases hw with hw | hw
        · exact .inl (b w hw)
        · exact .inr hw
      · obtain ⟨d1, d2⟩ := d hr'
        exact ⟨by simp [inorder, d1]; omega, d2⟩
      · obtain ⟨d1, d2⟩ := e hr'
        exact ⟨by simp [inorder, d1], d2⟩
    · simp only [if_neg c1]
      by_cases c2 : c.gt x v = true
      · simp only [if_pos c2]
        obtain ⟨a, b, d, e⟩ := ihr x hr
        generalize r.removeC c n x = res at *
        obtain ⟨r', rem, n'⟩ := res
        simp only [inorder_rotateOnRemove] at *
        refine ⟨exact_rotateOnRemove (h := h) hl a, fun w hw => ?_, fun hr' => ?_, fun hr' => ?_⟩
        · simp only [inorder, List.mem_append, List.mem_cons] at hw ⊢
          rcases hw with hw | hw | hw
          · exact .inl hw
          · exact .inr (.inl hw)
          · exact .inr (.inr (b w hw))
        · obtain ⟨d1, d2⟩ := d hr'
          exact ⟨by simp [inorder, d1]; omega, d2⟩
        · obtain ⟨d1, d2⟩ := e hr'
          exact ⟨by simp [inorder, d1], d2⟩
      · simp only [if_neg c2]
        cases l with
        | nil =>
          cases r with
          | nil => exact ⟨trivial, fun _ hw => by (cases hw), fun _ => ⟨rfl, rfl⟩, fun h => by (cases h)⟩
          | node ri rp rv rh rl rr =>
            refine ⟨exact_rotateOnRemove (h := 0) hr.2.1 hr.2.2, fun w hw => ?_, fun _ => ⟨?_, rfl⟩, fun h => by (cases h)⟩
            · rw [inorder_rotateOnRemove, inorder_setParent] at hw
              simp only [inorder, List.nil_append, List.mem_cons]; exact .inr hw
            · rw [inorder_rotateOnRemove, inorder_setParent]; simp [inorder]
        | node li lp lv lh ll lr =>
          cases r with
          | nil =>
            refine ⟨exact_rotateOnRemove (h := 0) hl.2.1 hl.2.2, fun w hw => ?_, fun _ => ⟨?_, rfl⟩, fun h => by (cases h)⟩
            · rw [inorder_rotateOnRemove, inorder_setParent] at hw
              rw [inorder]; exact List.mem_append_left _ hw
            · rw [inorder_rotateOnRemove, inorder_setParent, inorder.eq_2 i]
              simp only [inorder.eq_1, List.length_append, List.length_cons, List.length_nil]
          | node ri rp rv rh rl rr =>
            have hm := leftmost_eq (.node ri rp rv rh rl rr)
            cases hm2 : leftmost (.node ri rp rv rh rl rr) with
            | none =>
              rw [hm2] at hm
              simp [inorder] at hm
            | some m =>
              have hmem : m ∈ inorder (.node ri rp rv rh rl rr) := by
                rw [hm2] at hm
                exact List.mem_of_mem_head? hm.symm
              obtain ⟨a, b, d, e⟩ := ihr m hr
              generalize hres : (Tree.node ri rp rv rh rl rr).removeC c n m = res at *
              obtain ⟨r', rem, n'⟩ := res
              simp only [hm2, hres, inorder_rotateOnRemove] at *
              refine ⟨exact_rotateOnRemove (h := h) hl a, fun w hw => ?_, fun hr' => ?_, fun hr' => ?_⟩
              · rw [inorder] at hw ⊢
                simp only [List.mem_append, List.mem_cons] at hw ⊢
                rcases hw with hw | hw | hw
                · exact .inl hw
                · exact .inr (.inr (hw ▸ hmem))
                · exact .inr (.inr (b w hw))
              · obtain ⟨d1, d2⟩ := d hr'
                refine ⟨?_, d2⟩
                rw [inorder.eq_2 i, inorder.eq_2 i]
                simp only [List.length_append, List.length_cons, d1]; omega
              · obtain ⟨d1, d2⟩ := e hr'
                refine ⟨?_, d2⟩
                rw [inorder.eq_2 i, inorder.eq_2 i]
                simp only [List.length_append, List.length_cons, d1]

/-- What always holds of an object. -/
structure AnyInv (a : Avl α) : Prop where
  size : a.size = (inorder a.root).length % W
  exact : HeightsExact a.root

theorem anyInv_insertC (c : Cmp α) {a : Avl α} (h : AnyInv a) (x : α) : AnyInv (a.insertC c x).1 := by
  obtain ⟨p1, p2, p3⟩ := insertC_spec c a.dups a.next x a.size a.root none h.exact
  unfold Avl.insertC
  generalize a.root.insertC c a.dups a.next x a.size none = res at *
  obtain ⟨t', ins, n'⟩ := res
  refine ⟨?_, p1⟩
  cases ins with
  | true =>
    obtain ⟨⟨l1, l2, e1, e2⟩, e3⟩ := p2 rfl
    simp only at e2 e3 ⊢
    rw [e2, e3, h.size, e1]
    simp only [List.length_append, List.length_cons, Nat.mod_add_mod]
    rw [Nat.add_assoc]
  | false =>
    obtain ⟨e1, e2⟩ := p3 rfl
    simp only at e1 e2 ⊢
    rw [e1, e2, h.size]

theorem pred_mod (k : Nat) : ((k + 1) % W + W - 1) % W = k % W := by
  have hW : 0 < W := by decide
  rw [Nat.add_sub_assoc (by omega), Nat.mod_add_mod, show k + 1 + (W - 1) = k + W by omega, Nat.add_mod_right]

theorem anyInv_removeC (c : Cmp α) {a : Avl α} (h : AnyInv a) (x : α) : AnyInv (a.removeC c x).1 ∧
    ((a.removeC c x).2 = true → (inorder a.root).length = (inorder (a.removeC c x).1.root).length + 1) ∧
    ((a.removeC c x).2 = false → (inorder (a.removeC c x).1.root).length = (inorder a.root).length) ∧
    (∀ v ∈ inorder (a.removeC c x).1.root, v ∈ inorder a.root) ∧ (a.removeC c x).1.dups = a.dups := by
  obtain ⟨p1, p2, p3, p4⟩ := removeC_spec c a.size a.root x h.exact
  unfold Avl.removeC
  generalize a.root.removeC c a.size x = res at *
  obtain ⟨t', rem, n'⟩ := res
  refine ⟨⟨?_, p1⟩, fun hr => (p3 hr).1, fun hr => (p4 hr).1, p2, rfl⟩
  cases rem with
  | true =>
    obtain ⟨e1, e2⟩ := p3 rfl
    simp only at e1 e2 ⊢
    rw [e2, h.size, e1, pred_mod]
  | false =>
    obtain ⟨e1, e2⟩ := p4 rfl
    simp only at e1 e2 ⊢
    rw [e2, h.size, e1]

theorem anyInv_removeAllC (c : Cmp α) (x : α) : ∀ (fuel : Nat) (a : Avl α) (cnt : Nat), AnyInv a → (inorder a.root).length < fuel →
    ∃ a' k, Avl.removeAllFuelC c fuel a x cnt = some (a', cnt + k) ∧ AnyInv a' ∧
      (inorder a.root).length = (inorder a'.root).length + k ∧ (∀ v ∈ inorder a'.root, v ∈ inorder a.root) ∧ a'.dups = a.dups := by
  intro fuel
  induction fuel with
  | zero => intro a cnt _ h; omega
  | succ fuel ih =>
    intro a cnt h hf
    obtain ⟨q1, q2, q3, q4, q5⟩ := anyInv_removeC c h x
    unfold Avl.removeAllFuelC
    generalize a.removeC c x = res at *
    obtain ⟨a1, rem⟩ := res
    cases rem with
    | true =>
      have := q2 rfl
      simp only at this q1 q4 q5 ⊢
      obtain ⟨a', k, e, i1, i2, i3, i4⟩ := ih a1 (cnt + 1) q1 (by omega)
      exact ⟨a', k + 1, by rw [e]; congr 2; omega, i1, by omega, fun v hv => q4 v (i3 v hv), i4.trans q5⟩
    | false =>
      have := q3 rfl
      simp only at this q1 q4 q5 ⊢
      exact ⟨a1, 0, rfl, q1, by omega, q4, q5⟩

/-- One call, whatever the comparisons: what it reports is what happened to the number of elements. -/
def CountOk (a : Avl α) (op : Op α) (o : Out) (a' : Avl α) : Prop :=
  match op, o with
  | .insert x, .bool true => ∃ l1 l2, inorder a.root = l1 ++ l2 ∧ inorder a'.root = l1 ++ x :: l2
  | .insert _, .bool false => inorder a'.root = inorder a.root
  | .remove _, .bool b => (inorder a.root).length = (inorder a'.root).length + b.toNat ∧ ∀ v ∈ inorder a'.root, v ∈ inorder a.root
  | .removeAll _, .count k => (inorder a.root).length = (inorder a'.root).length + k ∧ ∀ v ∈ inorder a'.root, v ∈ inorder a.root
  | .clear, .unit => inorder a'.root = []
  | .enableDuplicates, .unit | .disableDuplicates, .unit => inorder a'.root = inorder a.root
  | _, _ => False

theorem stepC_any (c : Cmp α) {a : Avl α} (h : AnyInv a) (op : Op α) :
    ∃ a' o, stepC c a op = .ok (a', o) ∧ AnyInv a' ∧ CountOk a op o a' := by
  cases op with
  | insert x =>
    refine ⟨_, _, rfl, anyInv_insertC c h x, ?_⟩
    obtain ⟨-, p2, p3⟩ := insertC_spec c a.dups a.next x a.size a.root none h.exact
    unfold Avl.insertC
    generalize a.root.insertC c a.dups a.next x a.size none = res at *
    obtain ⟨t', ins, n'⟩ := res
    cases ins with
    | true => exact (p2 rfl).1
    | false => exact congrArg inorder (p3 rfl).1
  | remove x =>
    obtain ⟨q1, q2, q3, q4, -⟩ := anyInv_removeC c h x
    refine ⟨_, _, rfl, q1, ?_⟩
    simp only [CountOk]
    refine ⟨?_, q4⟩
    cases hb : (a.removeC c x).2 with
    | true => simpa using q2 hb
    | false => simpa using (q3 hb).symm
  | removeAll x =>
    obtain ⟨a', k, e, i1, i2, i3, -⟩ := anyInv_removeAllC c x (Avl.nodes a.root + 1) a 0 h (by rw [nodes_eq]; omega)
    refine ⟨a', .count k, ?_, i1, i2, i3⟩
    simp only [stepC, Avl.removeAllC, e, Nat.zero_add, Res.bind_ok]
  | clear => exact ⟨_, _, rfl, ⟨rfl, trivial⟩, rfl⟩
  | enableDuplicates => exact ⟨_, _, rfl, ⟨h.size, h.exact⟩, rfl⟩
  | disableDuplicates => exact ⟨_, _, rfl, ⟨h.size, h.exact⟩, rfl⟩

/-- The calls of a history one after the other. -/
inductive Trace (c : Cmp α) : Avl α → List (Op α) → List Out → Avl α → Prop
  | nil {a} : Trace c a [] [] a
  | cons {a a1 a2 op o ops os} (h1 : stepC c a op = .ok (a1, o)) (hc : CountOk a op o a1) (h2 : Trace c a1 ops os a2) :
    Trace c a (op :: ops) (o :: os) a2

/-! ### Comparisons that agree with a linear order -/

/-- The same tree with other values. -/
def Tree.map (f : α → β) : Tree α → Tree β
  | .nil => .nil
  | .node i p v h l r => .node i p (f v) h (l.map f) (r.map f)

@[simp] theorem height_map (f : α → β) (t : Tree α) : (t.map f).height = t.height := by cases t <;> rfl
theorem setParent_map (f : α → β) (p) (t : Tree α) : (t.map f).setParent p = (t.setParent p).map f := by cases t <;> rfl

theorem inorder_map (f : α → β) (t : Tree α) : inorder (t.map f) = (inorder t).map f := by
  induction t with
  | nil => rfl
  | node i p v h l r ihl ihr => simp [Tree.map, inorder, ihl, ihr]

theorem rotateRight_map (f : α → β) (t : Tree α) : rotateRight (t.map f) = (rotateRight t).map f := by
  cases t with
  | nil => rfl
  | node i p v h l r => cases l <;> simp [Tree.map, rotateRight]

theorem rotateLeft_map (f : α → β) (t : Tree α) : rotateLeft (t.map f) = (rotateLeft t).map f := by
  cases t with
  | nil => rfl
  | node i p v h l r => cases r <;> simp [Tree.map, rotateLeft]

theorem doubleRotateRight_map (f : α → β) (t : Tree α) : doubleRotateRight (t.map f) = (doubleRotateRight t).map f := by
  cases t with
  | nil => rfl
  | node i p v h l r =>
    simp only [Tree.map, doubleRotateRight, rotateLeft_map]
    exact rotateRight_map f (.node i p v h (rotateLeft l) r)

theorem doubleRotateLeft_map (f : α → β) (t : Tree α) : doubleRotateLeft (t.map f) = (doubleRotateLeft t).map f := by
  cases t with
  | nil => rfl
  | node i p v h l r =>
    simp only [Tree.map, doubleRotateLeft, rotateRight_map]
    exact rotateLeft_map f (.node i p v h l (rotateRight r))

theorem leftmost_map (f : α → β) (t : Tree α) : leftmost (t.map f) = (leftmost t).map f := by
  rw [leftmost_eq, leftmost_eq, inorder_map, List.head?_map]

theorem rotateOnRemove_map (f : α → β) (t : Tree α) : rotateOnRemove (t.map f) = (rotateOnRemove t).map f := by
  cases t with
  | nil => rfl
  | node i p v h l r =>
    simp only [Tree.map, rotateOnRemove, height_map]
    by_cases h1 : l.height = r.height + 2
    · simp only [if_pos h1]
      cases l with
      | nil => rfl
      | node li lp lv lh ll lr =>
        simp only [Tree.map, height_map]
        by_cases h2 : ll.height = lr.height + 1
        · simp only [if_pos h2]
          exact rotateRight_map f (.node i p v (max (Tree.node li lp lv lh ll lr).height r.height + 1) (.node li lp lv lh ll lr) r)
        · simp only [if_neg h2]
          exact doubleRotateRight_map f (.node i p v (max (Tree.node li lp lv lh ll lr).height r.height + 1) (.node li lp lv lh ll lr) r)
    · simp only [if_neg h1]
      by_cases h3 : r.height = l.height + 2
      · simp only [if_pos h3]
        cases r with
        | nil => rfl
        | node ri rp rv rh rl rr =>
          simp only [Tree.map, height_map]
          by_cases h2 : rr.height = rl.height + 1
          · simp only [if_pos h2]
            exact rotateLeft_map f (.node i p v (max l.height (Tree.node ri rp rv rh rl rr).height + 1) l (.node ri rp rv rh rl rr))
          · simp only [if_neg h2]
            exact doubleRotateLeft_map f (.node i p v (max l.height (Tree.node ri rp rv rh rl rr).height + 1) l (.node ri rp rv rh rl rr))
      · simp only [if_neg h3]; rfl

variable [LinearOrder α]

/-- The comparisons of the values of `f` are those of their arguments. -/
structure Agrees (c : Cmp β) (f : α → β) : Prop where
  lt : ∀ a b, c.lt (f a) (f b) = decide (a < b)
  gt : ∀ a b, c.gt (f a) (f b) = decide (b < a)
  eq : ∀ a b, c.eq (f a) (f b) = decide (a = b)

section
variable {c : Cmp β} {f : α → β} (hf : Agrees c f)
include hf

theorem rotateIfNeededC_map (x : α) (t : Tree α) : rotateIfNeededC c (f x) (t.map f) = (rotateIfNeeded x t).map f := by
  cases t with
  | nil => rfl
  | node i p v h l r =>
    simp only [Tree.map, rotateIfNeededC, rotateIfNeeded, height_map]
    by_cases h1 : l.height = r.height + 2
    · simp only [if_pos h1]
      cases l with
      | nil => rfl
      | node li lp lv lh ll lr =>
        simp only [Tree.map, hf.lt, decide_eq_true_eq]
        by_cases h2 : x < lv
        · simp only [if_pos h2]
          exact rotateRight_map f (.node i p v (max (Tree.node li lp lv lh ll lr).height r.height + 1) (.node li lp lv lh ll lr) r)
        · simp only [if_neg h2]
          exact doubleRotateRight_map f (.node i p v (max (Tree.node li lp lv lh ll lr).height r.height + 1) (.node li lp lv lh ll lr) r)
    · simp only [if_neg h1]
      by_cases h3 : r.height = l.height + 2
      · simp only [if_pos h3]
        cases r with
        | nil => rfl
        | node ri rp rv rh rl rr =>
          simp only [Tree.map, hf.gt, decide_eq_true_eq]
          by_cases h2 : rv < x
          · simp only [if_pos h2]
            exact rotateLeft_map f (.node i p v (max l.height (Tree.node ri rp rv rh rl rr).height + 1) l (.node ri rp rv rh rl rr))
          · simp only [if_neg h2]
            exact doubleRotateLeft_map f (.node i p v (max l.height (Tree.node ri rp rv rh rl rr).height + 1) l (.node ri rp rv rh rl rr))
      · simp only [if_neg h3]; rfl

theorem insertC_map (dups : Bool) (fresh : Nat) (x : α) (n : Nat) (t : Tree α) : ∀ par,
    (t.map f).insertC c dups fresh (f x) n par =
      ((t.insert dups fresh x n par).1.map f, (t.insert dups fresh x n par).2) := by
  induction t with
  | nil => intro par; rfl
  | node i p v h l r ihl ihr =>
    intro par
    simp only [Tree.map, Tree.insertC, Tree.insert, hf.lt, hf.gt, decide_eq_true_eq, ihl, ihr]
    have fin : ∀ (b : Bool) (t' : Tree α), (if b = true then rotateIfNeededC c (f x) (t'.map f) else t'.map f) =
        (if b = true then rotateIfNeeded x t' else t').map f := by
      intro b t'
      cases b
      · rfl
      · exact rotateIfNeededC_map hf x t'
    by_cases h1 : x < v
    · simp only [if_pos h1]
      rw [← fin]; rfl
    · simp only [if_neg h1]
      by_cases h2 : v < x
      · simp only [if_pos h2]
        rw [← fin]; rfl
      · simp only [if_neg h2]
        cases dups
        · rfl
        · simp only [if_true]
          rw [← fin]; rfl

theorem removeC_map (n : Nat) (t : Tree α) : ∀ x,
    (t.map f).removeC c n (f x) = ((t.remove n x).1.map f, (t.remove n x).2) := by
  induction t with
  | nil => intro x; rfl
  | node i p v h l r ihl ihr =>
    intro x
    unfold Tree.remove
    simp only [Tree.map]
    unfold Tree.removeC
    simp only [hf.lt, hf.gt, decide_eq_true_eq, ihl, ihr]
    by_cases h1 : x < v
    · simp only [if_pos h1]
      rw [← rotateOnRemove_map]; rfl
    · simp only [if_neg h1]
      by_cases h2 : v < x
      · simp only [if_pos h2]
        rw [← rotateOnRemove_map]; rfl
      · simp only [if_neg h2]
        cases l with
        | nil =>
          cases r with
          | nil => rfl
          | node ri rp rv rh rl rr =>
            simp only [Tree.map]
            rw [← rotateOnRemove_map]; rfl
        | node li lp lv lh ll lr =>
          cases r with
          | nil =>
            simp only [Tree.map]
            rw [← rotateOnRemove_map]; rfl
          | node ri rp rv rh rl rr =>
            have hm := leftmost_map f (.node ri rp rv rh rl rr)
            simp only [Tree.map] at hm ihr ⊢
            rw [hm]
            cases leftmost (.node ri rp rv rh rl rr) with
            | none => rfl
            | some m =>
              simp only [Option.map_some, ihr]
              rw [← rotateOnRemove_map]; rfl

theorem containsC_map (x : α) (t : Tree α) : (t.map f).containsC c (f x) = t.contains x := by
  induction t with
  | nil => rfl
  | node i p v h l r ihl ihr =>
    simp only [Tree.map, Tree.containsC, Tree.contains, hf.lt, hf.gt, hf.eq, decide_eq_true_eq, ihl, ihr]

end

/-- The same object with other values. -/
def mapAvl (f : α → β) (a : Avl α) : Avl β := ⟨a.root.map f, a.dups, a.size, a.next⟩

section
variable {c : Cmp β} {f : α → β} (hf : Agrees c f)
include hf

theorem avl_insertC_map (a : Avl α) (x : α) : (mapAvl f a).insertC c (f x) = (mapAvl f (a.insert x).1, (a.insert x).2) := by
  simp only [Avl.insertC, Avl.insert, mapAvl, insertC_map hf]

theorem avl_removeC_map (a : Avl α) (x : α) : (mapAvl f a).removeC c (f x) = (mapAvl f (a.remove x).1, (a.remove x).2) := by
  simp only [Avl.removeC, Avl.remove, mapAvl, removeC_map hf]

theorem avl_removeAllFuelC_map (x : α) : ∀ (fuel : Nat) (a : Avl α) (cnt : Nat),
    Avl.removeAllFuelC c fuel (mapAvl f a) (f x) cnt = (Avl.removeAllFuel fuel a x cnt).map (fun r => (mapAvl f r.1, r.2)) := by
  intro fuel
  induction fuel with
  | zero => intro a cnt; rfl
  | succ fuel ih =>
    intro a cnt
    unfold Avl.removeAllFuelC Avl.removeAllFuel
    rw [avl_removeC_map hf]
    generalize a.remove x = res
    obtain ⟨a1, rem⟩ := res
    cases rem with
    | true => exact ih a1 (cnt + 1)
    | false => rfl

end

theorem nodes_map (f : α → β) (t : Tree α) : Avl.nodes (t.map f) = Avl.nodes t := by
  rw [nodes_eq, nodes_eq, inorder_map, List.length_map]

/-- The comparisons of a linear order. -/
def lin : Cmp α := ⟨fun a b => decide (a < b), fun a b => decide (b < a), fun a b => decide (a = b)⟩

theorem lin_agrees : Agrees (lin : Cmp α) id := ⟨fun _ _ => rfl, fun _ _ => rfl, fun _ _ => rfl⟩

theorem map_id' (t : Tree α) : t.map id = t := by
  induction t with
  | nil => rfl
  | node i p v h l r ihl ihr => simp [Tree.map, ihl, ihr]

theorem mapAvl_id (a : Avl α) : mapAvl id a = a := by simp [mapAvl, map_id']

theorem stepC_lin (a : Avl α) (op : Op α) : stepC lin a op = step a op := by
  cases op with
  | insert x =>
    have h := avl_insertC_map lin_agrees a x
    simp only [mapAvl_id, id] at h
    simp only [stepC, step, h]
  | remove x =>
    have h := avl_removeC_map lin_agrees a x
    simp only [mapAvl_id, id] at h
    simp only [stepC, step, h]
  | removeAll x =>
    have h := avl_removeAllFuelC_map lin_agrees x (Avl.nodes a.root + 1) a 0
    simp only [mapAvl_id, id] at h
    simp only [stepC, step, Avl.removeAllC, Avl.removeAll, h, Option.map_id']
    all_goals (cases Avl.removeAllFuel (Avl.nodes a.root + 1) a x 0 <;> rfl)
  | clear => rfl
  | enableDuplicates => rfl
  | disableDuplicates => rfl

/-! ### Floating point numbers -/

/-- A number or NaN. -/
inductive Fl (α : Type) where
  | nan | num (a : α)
deriving DecidableEq, Repr

/-- IEEE comparisons: a comparison with NaN is false. -/
def ieee : Cmp (Fl α) where
  lt | .num a, .num b => decide (a < b) | _, _ => false
  gt | .num a, .num b => decide (b < a) | _, _ => false
  eq | .num a, .num b => decide (a = b) | _, _ => false

theorem ieee_agrees : Agrees (ieee : Cmp (Fl α)) Fl.num := ⟨fun _ _ => rfl, fun _ _ => rfl, fun _ _ => rfl⟩

theorem ieee_nan_lt (v : Fl α) : ieee.lt .nan v = false := rfl
theorem ieee_nan_gt (v : Fl α) : ieee.gt .nan v = false := rfl
theorem ieee_nan_eq (v : Fl α) : ieee.eq .nan v = false := rfl
theorem ieee_lt_nan (v : Fl α) : ieee.lt v .nan = false := by cases v <;> rfl
theorem ieee_gt_nan (v : Fl α) : ieee.gt v .nan = false := by cases v <;> rfl
theorem ieee_eq_nan (v : Fl α) : ieee.eq v .nan = false := by cases v <;> rfl

/-- `remove(NaN)` removes the value at the root. -/
theorem removeC_nan (n : Nat) {i p v h} (l r : Tree α) :
    ((Tree.node i p v h l r).map Fl.num).removeC ieee n .nan = ((Tree.node i p v h l r).map Fl.num).removeC ieee n (.num v) := by
  simp only [Tree.map]
  rw [Tree.removeC.eq_def, Tree.removeC.eq_def]
  have e1 : (ieee : Cmp (Fl α)).lt (.num v) (.num v) = false := by simp [ieee]
  have e2 : (ieee : Cmp (Fl α)).gt (.num v) (.num v) = false := by simp [ieee]
  simp only [e1, e2, ieee_nan_lt, ieee_nan_gt, Bool.false_eq_true, if_false]

/-- The content of a tree without duplicates: a set of numbers or one NaN. -/
inductive Content (α : Type) where
  | nums (s : α → Prop) | onlyNan

/-- The tree holds exactly these elements, each once, in ascending order. -/
def Holds (a : Avl (Fl α)) : Content α → Prop
  | .nums s => ∃ l : List α, inorder a.root = l.map Fl.num ∧ l.Pairwise (· < ·) ∧ ∀ x, x ∈ l ↔ s x
  | .onlyNan => inorder a.root = [.nan]

/-- What a call does to the content and what it returns. -/
inductive Call : Content α → Op (Fl α) → Out → Content α → Prop
  | insertNew {s x} (h : ¬ s x) : Call (.nums s) (.insert (.num x)) (.bool true) (.nums fun y => y = x ∨ s y)
  | insertOld {s x} (h : s x) : Call (.nums s) (.insert (.num x)) (.bool false) (.nums s)
  | insertNanEmpty {s} (h : ∀ y, ¬ s y) : Call (.nums s) (.insert .nan) (.bool true) .onlyNan
  | insertNan {s y} (h : s y) : Call (.nums s) (.insert .nan) (.bool false) (.nums s)
  | insertOnNan {v} : Call .onlyNan (.insert v) (.bool false) .onlyNan
  | removeOld {s x} (h : s x) : Call (.nums s) (.remove (.num x)) (.bool true) (.nums fun y => y ≠ x ∧ s y)
  | removeNot {s x} (h : ¬ s x) : Call (.nums s) (.remove (.num x)) (.bool false) (.nums s)
  | removeNanEmpty {s} (h : ∀ y, ¬ s y) : Call (.nums s) (.remove .nan) (.bool false) (.nums s)
  | removeNan {s y} (h : s y) : Call (.nums s) (.remove .nan) (.bool true) (.nums fun z => z ≠ y ∧ s z)
  | removeOnNan {v} : Call .onlyNan (.remove v) (.bool true) (.nums fun _ => False)
  | removeAllOld {s x} (h : s x) : Call (.nums s) (.removeAll (.num x)) (.count 1) (.nums fun y => y ≠ x ∧ s y)
  | removeAllNot {s x} (h : ¬ s x) : Call (.nums s) (.removeAll (.num x)) (.count 0) (.nums s)
  | removeAllNan {s} {l : List α} (hn : l.Nodup) (h : ∀ x, x ∈ l ↔ s x) :
    Call (.nums s) (.removeAll .nan) (.count l.length) (.nums fun _ => False)
  | removeAllOnNan {v} : Call .onlyNan (.removeAll v) (.count 1) (.nums fun _ => False)
  | clear {k} : Call k .clear .unit (.nums fun _ => False)
  | disable {k} : Call k .disableDuplicates .unit k

/-- The calls of a history. -/
inductive Calls : Content α → List (Op (Fl α)) → List Out → Content α → Prop
  | nil {k} : Calls k [] [] k
  | cons {k k1 k2 op o ops os} (h1 : Call k op o k1) (h2 : Calls k1 ops os k2) : Calls k (op :: ops) (o :: os) k2

/-- Invariant of the objects without duplicates. -/
def FInv (a : Avl (Fl α)) : Content α → Prop
  | .nums s => ∃ (b : Avl α) (m : MSet α), a = mapAvl Fl.num b ∧ Sim b m ∧ m.dups = false ∧ (∀ x, m.mult x ≤ 1) ∧ ∀ x, 0 < m.mult x ↔ s x
  | .onlyNan => a.dups = false ∧ a.size = 1 ∧ ∃ i p h, a.root = .node i p .nan h .nil .nil

theorem finv_strict {b : Avl α} {m : MSet α} (h : Sim b m) (h1 : ∀ x, m.mult x ≤ 1) : (inorder b.root).Pairwise (· < ·) := by
  have hn : (inorder b.root).Nodup := by
    rw [List.nodup_iff_count]
    intro x; rw [h.mult x]; exact h1 x
  have hs : (inorder b.root).Pairwise (· ≤ ·) := h.sorted
  exact (hs.and hn).imp (fun ⟨u, v⟩ => lt_of_le_of_ne u v)

theorem finv_holds {a : Avl (Fl α)} {k : Content α} (h : FInv a k) : Holds a k := by
  cases k with
  | nums s =>
    obtain ⟨b, m, e, h1, h2, h3, h4⟩ := h
    subst e
    exact ⟨inorder b.root, inorder_map _ _, finv_strict h1 h3, fun x => by rw [h1.mem, h4]⟩
  | onlyNan =>
    obtain ⟨-, -, i, p, hh, e⟩ := h
    simp [Holds, e, inorder]

theorem finv_empty {a : Avl (Fl α)} (h1 : a.root = .nil) (h2 : a.dups = false) (h3 : a.size = 0) : FInv a (.nums fun _ : α => False) := by
  refine ⟨⟨.nil, a.dups, a.size, a.next⟩, ⟨fun _ => 0, false⟩, ?_, ⟨List.Pairwise.nil, fun _ => rfl, h2, by rw [h3]; rfl⟩, rfl, fun _ => Nat.zero_le 1, fun _ => by simp⟩
  obtain ⟨r, d, n, nx⟩ := a
  simp only at h1
  subst h1
  rfl

/-- A call on a set of numbers with a number behaves like one on a tree of linearly ordered elements. -/
theorem finv_mset {b : Avl α} {m : MSet α} (h : Sim b m) (hd : m.dups = false) (h1 : ∀ x, m.mult x ≤ 1) (x : α) :
    (FInv ((mapAvl Fl.num b).insertC ieee (.num x)).1 (.nums fun y => y = x ∨ 0 < m.mult y) ∧
      (((mapAvl Fl.num b).insertC ieee (.num x)).2 = true ↔ m.mult x = 0)) ∧
    (FInv ((mapAvl Fl.num b).removeC ieee (.num x)).1 (.nums fun y => y ≠ x ∧ 0 < m.mult y) ∧
      (((mapAvl Fl.num b).removeC ieee (.num x)).2 = true ↔ 0 < m.mult x)) := by
  rw [avl_insertC_map ieee_agrees, avl_removeC_map ieee_agrees]
  obtain ⟨i1, i2⟩ := sim_insert h x
  obtain ⟨r1, r2⟩ := sim_remove h x
  refine ⟨⟨⟨_, _, rfl, i1, ?_, fun y => ?_, fun y => ?_⟩, ?_⟩, ⟨_, _, rfl, r1, ?_, fun y => ?_, fun y => ?_⟩, ?_⟩
  all_goals have hx := h1 x
  · by_cases e1 : m.mult x = 0 <;> simp [MSet.step, hd, e1]
  · have hy := h1 y
    by_cases e : y = x
    · subst e
      by_cases e1 : m.mult y = 0 <;> simp [MSet.step, hd, e1]; omega
    · by_cases e1 : m.mult x = 0 <;> simp [MSet.step, hd, e1, e, hy]
  · by_cases e : y = x
    · subst e
      by_cases e1 : m.mult y = 0 <;> simp [MSet.step, hd, e1]; omega
    · by_cases e1 : m.mult x = 0 <;> simp [MSet.step, hd, e1, e]
  · simp only [MSet.step, hd] at i2
    by_cases e1 : m.mult x = 0
    · simp [e1] at i2; simp [i2, e1]
    · simp [e1] at i2; simp [i2, e1]
  · by_cases e1 : m.mult x = 0 <;> simp [MSet.step, hd, e1]
  · have hy := h1 y
    by_cases e : y = x
    · subst e
      by_cases e1 : m.mult y = 0 <;> simp [MSet.step, e1]; omega
    · by_cases e1 : m.mult x = 0 <;> simp [MSet.step, e1, e, hy]
  · by_cases e : y = x
    · subst e
      by_cases e1 : m.mult y = 0 <;> simp [MSet.step, e1]; omega
    · by_cases e1 : m.mult x = 0 <;> simp [MSet.step, e1, e]
  · simp only [MSet.step] at r2
    by_cases e1 : m.mult x = 0
    · simp [e1] at r2; simp [r2, e1]
    · simp [e1] at r2; simp [r2]; omega

theorem finv_nums {a : Avl (Fl α)} {s s' : α → Prop} (h : FInv a (.nums s)) (e : ∀ x, s x ↔ s' x) : FInv a (.nums s') := by
  obtain ⟨b, m, h0, h1, h2, h3, h4⟩ := h
  exact ⟨b, m, h0, h1, h2, h3, fun x => (h4 x).trans (e x)⟩

/-- `remove(NaN)` on numbers. -/
theorem finv_remove_nan {b : Avl α} {m : MSet α} (h : Sim b m) (hd : m.dups = false) (h1 : ∀ x, m.mult x ≤ 1) (hb : b.root ≠ .nil) :
    ∃ y, 0 < m.mult y ∧ FInv ((mapAvl Fl.num b).removeC ieee .nan).1 (.nums fun z => z ≠ y ∧ 0 < m.mult z) ∧
      ((mapAvl Fl.num b).removeC ieee .nan).2 = true := by
  obtain ⟨r, d, n, nx⟩ := b
  cases r with
  | nil => exact absurd rfl hb
  | node i p v hh l r =>
    have hv : 0 < m.mult v := by
      rw [← h.mem]; simp [inorder]
    have e : (mapAvl Fl.num ⟨.node i p v hh l r, d, n, nx⟩).removeC ieee .nan =
        (mapAvl Fl.num ⟨.node i p v hh l r, d, n, nx⟩).removeC ieee (.num v) := by
      simp only [Avl.removeC, mapAvl]
      rw [removeC_nan]
    obtain ⟨-, q1, q2⟩ := finv_mset h hd h1 v
    exact ⟨v, hv, e ▸ q1, e ▸ q2.2 hv⟩

theorem finv_removeAll_nan : ∀ (fuel : Nat) (b : Avl α) (m : MSet α) (cnt : Nat), Sim b m → m.dups = false → (∀ x, m.mult x ≤ 1) →
    (inorder b.root).length < fuel →
    ∃ a', Avl.removeAllFuelC ieee fuel (mapAvl Fl.num b) .nan cnt = some (a', cnt + (inorder b.root).length) ∧
      FInv a' (.nums fun _ : α => False) := by
  intro fuel
  induction fuel with
  | zero => intro b m cnt _ _ _ hl; omega
  | succ fuel ih =>
    intro b m cnt h hd h1 hl
    unfold Avl.removeAllFuelC
    by_cases hb : b.root = .nil
    · obtain ⟨r, d, n, nx⟩ := b
      simp only at hb
      subst hb
      exact ⟨_, rfl, finv_empty rfl (h.dups.trans hd) (show n = 0 by simpa [inorder] using h.size)⟩
    · obtain ⟨y, hy, q1, q2⟩ := finv_remove_nan h hd h1 hb
      obtain ⟨b', m', e1, p1, p2, p3, p4⟩ := q1
      generalize (mapAvl Fl.num b).removeC ieee .nan = res at *
      obtain ⟨a1, rem⟩ := res
      simp only at e1 q2
      subst e1 q2
      have hlen : (inorder b.root).length = (inorder b'.root).length + 1 := by
        have hp : (inorder b.root).Perm (y :: inorder b'.root) := by
          rw [List.perm_iff_count]
          intro z
          rw [h.mult, List.count_cons, p1.mult]
          have a1 := h1 z
          have a2 := p3 z
          have a3 := p4 z
          by_cases e : y = z
          · subst e
            have : ¬ 0 < m'.mult y := fun hh => (a3.1 hh).1 rfl
            simp; omega
          · have : 0 < m'.mult z ↔ 0 < m.mult z := a3.trans ⟨And.right, fun hh => ⟨Ne.symm e, hh⟩⟩
            simp [e]; omega
        simpa using hp.length_eq
      obtain ⟨a', k1, k2⟩ := ih b' m' (cnt + 1) p1 p2 p3 (by omega)
      exact ⟨a', by simp only [k1]; congr 2; omega, k2⟩

theorem finv_step {a : Avl (Fl α)} {k : Content α} (h : FInv a k) {op : Op (Fl α)} (hop : op ≠ .enableDuplicates) :
    ∃ a' o k', stepC ieee a op = .ok (a', o) ∧ Call k op o k' ∧ FInv a' k' := by
  cases k with
  | onlyNan =>
    obtain ⟨r, d, n, nx⟩ := a
    obtain ⟨h1, h2, i, p, hh, h3⟩ := h
    simp only at h1 h2 h3
    subst h1 h2 h3
    have hrem : ∀ v : Fl α, Avl.removeC ieee ⟨.node i p .nan hh .nil .nil, false, 1, nx⟩ v = (⟨.nil, false, 0, nx⟩, true) := by
      intro v
      simp only [Avl.removeC, Tree.removeC, ieee_lt_nan, ieee_gt_nan, Bool.false_eq_true, if_false]
      rfl
    cases op with
    | insert v =>
      refine ⟨_, _, .onlyNan, rfl, ?_, ?_⟩
      · simp only [Avl.insertC, Tree.insertC, ieee_lt_nan, ieee_gt_nan, Bool.false_eq_true, if_false]
        exact .insertOnNan
      · simp only [Avl.insertC, Tree.insertC, ieee_lt_nan, ieee_gt_nan, Bool.false_eq_true, if_false]
        exact ⟨rfl, rfl, i, p, hh, rfl⟩
    | remove v =>
      refine ⟨_, _, .nums fun _ => False, rfl, ?_, ?_⟩
      · rw [hrem]; exact .removeOnNan
      · rw [hrem]; exact finv_empty rfl rfl rfl
    | removeAll v =>
      refine ⟨⟨.nil, false, 0, nx⟩, .count 1, _, ?_, .removeAllOnNan, finv_empty rfl rfl rfl⟩
      simp only [stepC, Avl.removeAllC, Avl.nodes]
      unfold Avl.removeAllFuelC
      rw [hrem]
      rfl
    | clear => exact ⟨_, _, _, rfl, .clear, finv_empty rfl rfl rfl⟩
    | enableDuplicates => exact absurd rfl hop
    | disableDuplicates => exact ⟨_, _, _, rfl, .disable, rfl, rfl, i, p, hh, rfl⟩
  | nums s =>
    obtain ⟨b, m, h0, h1, h2, h3, h4⟩ := h
    obtain rfl : (fun x => 0 < m.mult x) = s := funext fun x => propext (h4 x)
    subst h0
    have hempty : b.root = .nil → ∀ y, ¬ 0 < m.mult y := by
      intro e y; rw [← h1.mem, e]; simp [inorder]
    cases op with
    | insert v =>
      cases v with
      | num x =>
        obtain ⟨⟨q1, q2⟩, -⟩ := finv_mset h1 h2 h3 x
        by_cases e : m.mult x = 0
        · refine ⟨_, _, _, rfl, ?_, q1⟩
          rw [q2.2 e]
          exact .insertNew (by omega)
        · refine ⟨_, _, _, rfl, ?_, finv_nums q1 (s' := fun y => 0 < m.mult y) fun y => ?_⟩
          · rw [Bool.eq_false_iff.2 (fun hh => e (q2.1 hh))]
            exact .insertOld (by omega)
          · constructor
            · rintro (rfl | hy)
              · omega
              · exact hy
            · exact .inr
      | nan =>
        obtain ⟨r, d, n, nx⟩ := b
        have hd : d = false := h1.dups.trans h2
        subst hd
        cases r with
        | nil =>
          have hs : n = 0 := by simpa [inorder] using h1.size
          subst hs
          exact ⟨_, _, _, rfl, .insertNanEmpty (hempty rfl), rfl, rfl, _, _, _, rfl⟩
        | node i p v hh l r =>
          refine ⟨_, _, .nums fun x => 0 < m.mult x, rfl, ?_, ?_⟩
          · exact .insertNan (y := v) (by rw [← h1.mem]; simp [inorder])
          · exact ⟨⟨.node i p v hh l r, false, n, nx + 1⟩, m, rfl, ⟨h1.sorted, h1.mult, h1.dups, h1.size⟩, h2, h3, fun _ => Iff.rfl⟩
    | remove v =>
      cases v with
      | num x =>
        obtain ⟨-, q1, q2⟩ := finv_mset h1 h2 h3 x
        by_cases e : 0 < m.mult x
        · refine ⟨_, _, _, rfl, ?_, q1⟩
          rw [q2.2 e]
          exact .removeOld e
        · refine ⟨_, _, _, rfl, ?_, finv_nums q1 (s' := fun y => 0 < m.mult y) fun y => ?_⟩
          · rw [Bool.eq_false_iff.2 (fun hh => e (q2.1 hh))]
            exact .removeNot e
          · exact ⟨And.right, fun hy => ⟨fun e' => e (e' ▸ hy), hy⟩⟩
      | nan =>
        by_cases hb : b.root = .nil
        · obtain ⟨r, d, n, nx⟩ := b
          simp only at hb
          subst hb
          exact ⟨_, _, _, rfl, .removeNanEmpty (hempty rfl), _, m, rfl, h1, h2, h3, fun _ => Iff.rfl⟩
        · obtain ⟨y, hy, q1, q2⟩ := finv_remove_nan h1 h2 h3 hb
          refine ⟨_, _, _, rfl, ?_, q1⟩
          rw [q2]
          exact .removeNan hy
    | removeAll v =>
      cases v with
      | num x =>
        have hle : m.mult x ≤ (inorder b.root).length := by rw [← h1.mult x]; exact List.count_le_length
        obtain ⟨b', k1, k2⟩ := sim_removeAll (s := m) x (Avl.nodes b.root + 1) b m 0 h1 (by rw [nodes_eq]; omega)
        have hr : stepC ieee (mapAvl Fl.num b) (.removeAll (.num x)) = .ok (mapAvl Fl.num b', .count (m.mult x)) := by
          simp only [stepC, Avl.removeAllC]
          rw [show (mapAvl Fl.num b).root = b.root.map Fl.num from rfl, nodes_map, avl_removeAllFuelC_map ieee_agrees, k1]
          simp
        have hi : FInv (mapAvl Fl.num b') (.nums fun y => y ≠ x ∧ 0 < m.mult y) := by
          refine ⟨b', _, rfl, k2, h2, fun y => ?_, fun y => ?_⟩
          · by_cases e : y = x <;> simp [MSet.step, e, h3]
          · by_cases e : y = x <;> simp [MSet.step, e]
        have hx := h3 x
        by_cases e : 0 < m.mult x
        · refine ⟨_, _, _, hr, ?_, hi⟩
          rw [show m.mult x = 1 by omega]
          exact .removeAllOld e
        · refine ⟨_, _, _, hr, ?_, finv_nums hi (s' := fun y => 0 < m.mult y) fun y => ?_⟩
          · rw [show m.mult x = 0 by omega]
            exact .removeAllNot e
          · exact ⟨And.right, fun hy => ⟨fun e' => e (e' ▸ hy), hy⟩⟩
      | nan =>
        obtain ⟨a', k1, k2⟩ := finv_removeAll_nan (Avl.nodes b.root + 1) b m 0 h1 h2 h3 (by rw [nodes_eq]; omega)
        refine ⟨a', _, _, ?_, .removeAllNan (l := inorder b.root) ((finv_strict h1 h3).imp ne_of_lt) fun x => h1.mem x, k2⟩
        simp only [stepC, Avl.removeAllC]
        rw [show (mapAvl Fl.num b).root = b.root.map Fl.num from rfl, nodes_map, k1]
        simp
    | clear => exact ⟨_, _, _, rfl, .clear, finv_empty rfl (h1.dups.trans h2) rfl⟩
    | enableDuplicates => exact absurd rfl hop
    | disableDuplicates =>
      exact ⟨_, _, _, rfl, .disable, ⟨b.root, false, b.size, b.next⟩, m, rfl, ⟨h1.sorted, h1.mult, h2.symm, h1.size⟩, h2, h3, fun _ => Iff.rfl⟩

theorem finv_run : ∀ (ops : List (Op (Fl α))) {a : Avl (Fl α)} {k : Content α}, FInv a k → .enableDuplicates ∉ ops →
    ∃ a' os k', runC ieee a ops = .ok (a', os) ∧ Calls k ops os k' ∧ FInv a' k' := by
  intro ops
  induction ops with
  | nil => intro a k h _; exact ⟨a, [], k, rfl, .nil, h⟩
  | cons op ops ih =>
    intro a k h hn
    simp only [List.mem_cons, not_or] at hn
    obtain ⟨a1, o, k1, s1, s2, s3⟩ := finv_step h (Ne.symm hn.1)
    obtain ⟨a2, os, k2, t1, t2, t3⟩ := ih s3 hn.2
    exact ⟨a2, o :: os, k2, by simp only [runC, s1, Res.bind_ok, t1], .cons s2 t2, t3⟩

theorem finv_new : FInv (Avl.new : Avl (Fl α)) (.nums fun _ => False) := finv_empty rfl rfl rfl

end Verif.Avl
