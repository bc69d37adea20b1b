import Verif.Avl.Props

/-!
`avl_tree_t` (structures/binary_tree.h) when a comparison or a copy of an element, or an allocation, throws.

* Each call gets a plan that says which of the points it reaches throw.  A call passes every depth of the tree at most once (the
  removal of the successor goes on below the node it replaces), so the depth tells the points of one kind apart.
* An exception passes through the recursive calls without further effect: what was changed before stays.
* An assignment or an allocation that throws has no effect itself.
-/

namespace Verif.Avl
open Spec Tree
set_option linter.unusedSectionVars false
variable {α : Type} [LinearOrder α]

/-- The points of `insert` and `remove` that may throw, with the depth of the node. -/
inductive Pt where
  /-- `value < node->get()` (binary_tree.h:856, 896) -/
  | less (d : Nat)
  /-- `value > node->get()` (binary_tree.h:859, 899) -/
  | greater (d : Nat)
  /-- `new binary_node_t{ child, this }`: allocation and copy (binary_tree.h:225, 242, 871) -/
  | alloc (d : Nat)
  /-- the comparison of `rotate_if_needed` (binary_tree.h:793, 801) -/
  | balance (d : Nat)
  /-- the copy and the assignment of `node->set_value(*temp)` (binary_tree.h:905) -/
  | take (d : Nat)
  /-- the copy of `*temp` that is passed down (binary_tree.h:906) -/
  | again (d : Nat)
deriving DecidableEq, Repr

/-- Which points throw. -/
abbrev Plan := Pt → Bool

namespace Tree

/-- binary_tree.h:788-808 `rotate_if_needed`; the height is set before the comparison.  `false` when it throws. -/
def rotateIfNeededT (pl : Plan) (d : Nat) (x : α) : Tree α → Tree α × Bool
  | nil => (nil, true)
  | node i p v h l r =>
    if (l.height = r.height + 2 ∨ r.height = l.height + 2) ∧ pl (.balance d) = true then
      (node i p v (max l.height r.height + 1) l r, false)
    else (rotateIfNeeded x (node i p v h l r), true)

/-- The end of `insert` (binary_tree.h:876-880) after the recursive call for a child. -/
def insertEnd (pl : Plan) (d : Nat) (x : α) (t : Tree α) : Option Bool → Nat → Tree α × Option Bool × Nat
  | none, n => (t, none, n)
  | some false, n => (t, some false, n)
  | some true, n => ((rotateIfNeededT pl d x t).1, if (rotateIfNeededT pl d x t).2 then some true else none, n)

/-- binary_tree.h:853-881 `insert`, as `Tree.insert`; the result `inserted` is `none` when the call throws. -/
def insertT (pl : Plan) (dups : Bool) (fresh : Nat) (x : α) (n : Nat) : Nat → Option Nat → Tree α → Tree α × Option Bool × Nat
  | d, par, nil =>
    if pl (.alloc d) = true then (nil, none, n) else (node fresh par x 1 nil nil, some true, (n + 1) % W)
  | d, _, node i p v h l r =>
    if pl (.less d) = true then (node i p v h l r, none, n)
    else if x < v then
      let res := insertT pl dups fresh x n (d + 1) (some i) l
      insertEnd pl d x (node i p v h res.1 r) res.2.1 res.2.2
    else if pl (.greater d) = true then (node i p v h l r, none, n)
    else if v < x ∨ dups = true then
      let res := insertT pl dups fresh x n (d + 1) (some i) r
      insertEnd pl d x (node i p v h l res.1) res.2.1 res.2.2
    else (node i p v h l r, some false, n)

/-- The end of `remove` (binary_tree.h:921-923) after the recursive call for a child: it compares heights only. -/
def removeEnd (t : Tree α) : Option Bool → Nat → Tree α × Option Bool × Nat
  | none, n => (t, none, n)
  | some b, n => (rotateOnRemove t, some b, n)

/-- binary_tree.h:891-925 `remove`, as `Tree.remove`; the result `removed` is `none` when the call throws. -/
def removeT (pl : Plan) (n : Nat) : Nat → Tree α → α → Tree α × Option Bool × Nat
  | _, nil, _ => (nil, some false, n)
  | d, node i p v h l r, x =>
    if pl (.less d) = true then (node i p v h l r, none, n)
    else if x < v then
      let res := removeT pl n (d + 1) l x
      removeEnd (node i p v h res.1 r) res.2.1 res.2.2
    else if pl (.greater d) = true then (node i p v h l r, none, n)
    else if v < x then
      let res := removeT pl n (d + 1) r x
      removeEnd (node i p v h l res.1) res.2.1 res.2.2
    else
      match l, r with
      | nil, nil => (nil, some true, (n + W - 1) % W)
      | node li lp lv lh ll lr, nil =>
        (rotateOnRemove (setParent p (node li lp lv lh ll lr)), some true, (n + W - 1) % W)
      | nil, node ri rp rv rh rl rr =>
        (rotateOnRemove (setParent p (node ri rp rv rh rl rr)), some true, (n + W - 1) % W)
      | node li lp lv lh ll lr, node ri rp rv rh rl rr =>
        match leftmost (node ri rp rv rh rl rr) with
        | none => (node i p v h (node li lp lv lh ll lr) (node ri rp rv rh rl rr), some false, n)  -- not reached
        | some m =>
          if pl (.take d) = true then (node i p v h (node li lp lv lh ll lr) (node ri rp rv rh rl rr), none, n)
          else if pl (.again d) = true then (node i p m h (node li lp lv lh ll lr) (node ri rp rv rh rl rr), none, n)
          else
            let res := removeT pl n (d + 1) (node ri rp rv rh rl rr) m
            removeEnd (node i p m h (node li lp lv lh ll lr) res.1) res.2.1 res.2.2

/-- binary_tree.h:728-745 `contains` (it compares twice at a node); `none` when it throws. -/
def containsT (pl : Plan) (x : α) : Nat → Tree α → Option Bool
  | _, nil => some false
  | d, node _ _ v _ l r =>
    if pl (.less d) = true then none
    else if x < v then containsT pl x (d + 1) l
    else if pl (.greater d) = true then none
    else if v < x then containsT pl x (d + 1) r
    else if pl (.balance d) = true then none  -- `value == *node`
    else some (decide (x = v))

end Tree

namespace Avl

/-- binary_tree.h:480-484 `insert`. -/
def insertT (pl : Plan) (a : Avl α) (x : α) : Avl α × Option Bool :=
  let res := a.root.insertT pl a.dups a.next x a.size 0 none
  ({ a with root := res.1, size := res.2.2, next := a.next + 1 }, res.2.1)

/-- binary_tree.h:492-496 `remove`. -/
def removeT (pl : Plan) (a : Avl α) (x : α) : Avl α × Option Bool :=
  let res := a.root.removeT pl a.size 0 x
  ({ a with root := res.1, size := res.2.2 }, res.2.1)

end Avl

/-! ### Nothing throws -/

theorem rotateIfNeededT_none (d : Nat) (x : α) (t : Tree α) : t.rotateIfNeededT (fun _ => false) d x = (rotateIfNeeded x t, true) := by
  cases t <;> simp [Tree.rotateIfNeededT, rotateIfNeeded]

theorem insertT_none (dups : Bool) (fresh : Nat) (x : α) (n : Nat) (t : Tree α) : ∀ d par,
    t.insertT (fun _ => false) dups fresh x n d par =
      ((t.insert dups fresh x n par).1, some (t.insert dups fresh x n par).2.1, (t.insert dups fresh x n par).2.2) := by
  induction t with
  | nil => intro d par; simp [Tree.insertT, Tree.insert]
  | node i p v h l r ihl ihr =>
    intro d par
    have hend : ∀ (t : Tree α) (b : Bool) (k : Nat), Tree.insertEnd (fun _ => false) d x t (some b) k =
        (if b = true then rotateIfNeeded x t else t, some b, k) := by
      intro t b k
      cases b <;> simp [Tree.insertEnd, rotateIfNeededT_none]
    simp only [Tree.insertT, Tree.insert, Bool.false_eq_true, if_false, ihl, ihr, hend]
    by_cases h1 : x < v
    · simp only [h1, if_true]
    · by_cases h2 : v < x
      · simp only [h1, h2, if_true, if_false, true_or]
      · cases dups <;> simp [h1, h2]

theorem removeT_none (n : Nat) (t : Tree α) : ∀ d x,
    t.removeT (fun _ => false) n d x = ((t.remove n x).1, some (t.remove n x).2.1, (t.remove n x).2.2) := by
  induction t with
  | nil => intro d x; simp [Tree.removeT, Tree.remove]
  | node i p v h l r ihl ihr =>
    intro d x
    by_cases h1 : x < v
    · unfold Tree.removeT Tree.remove
      simp only [Bool.false_eq_true, if_false, h1, if_true, ihl, Tree.removeEnd]
    · by_cases h2 : v < x
      · unfold Tree.removeT Tree.remove
        simp only [Bool.false_eq_true, if_false, h1, h2, if_true, ihr, Tree.removeEnd]
      · unfold Tree.removeT Tree.remove
        simp only [Bool.false_eq_true, if_false, h1, h2]
        match l, r, ihr with
        | .nil, .nil, _ => rfl
        | .node .., .nil, _ => rfl
        | .nil, .node .., _ => rfl
        | .node li lp lv lh ll lr, .node ri rp rv rh rl rr, ihr =>
          simp only
          cases leftmost (.node ri rp rv rh rl rr) with
          | none => rfl
          | some m => simp only [ihr, Tree.removeEnd]

/-! ### What a call leaves behind -/

/-- Before a rotation that throws the contents are there. -/
theorem inorder_rotateIfNeededT (pl : Plan) (d : Nat) (x : α) (t : Tree α) : inorder (t.rotateIfNeededT pl d x).1 = inorder t := by
  cases t with
  | nil => rfl
  | node i p v h l r =>
    simp only [Tree.rotateIfNeededT]
    split
    · rfl
    · exact inorder_rotateIfNeeded x (.node i p v h l r)

/-- Every `insert` either changes nothing or stores the values of the `insert` that does not throw. -/
theorem insertT_spec (pl : Plan) (dups : Bool) (fresh : Nat) (x : α) (n : Nat) (t : Tree α) : ∀ d par,
    let res := t.insertT pl dups fresh x n d par
    let ref := t.insert dups fresh x n par
    (res.2.1 = some ref.2.1 ∧ res.1 = ref.1 ∧ res.2.2 = ref.2.2) ∨
    (res.2.1 = none ∧ res.1 = t ∧ res.2.2 = n) ∨
    (res.2.1 = none ∧ inorder res.1 = inorder ref.1 ∧ res.2.2 = ref.2.2 ∧ ref.2.1 = true ∧ ∃ d', pl (.balance d') = true) := by
  induction t with
  | nil =>
    intro d par
    simp only [Tree.insertT, Tree.insert]
    split <;> simp
  | node i p v h l r ihl ihr =>
    intro d par
    have hend : ∀ (f : Tree α → Tree α) (hf : ∀ a b, inorder a = inorder b → inorder (f a) = inorder (f b)) (c : Tree α)
        (res : Tree α × Option Bool × Nat) (ref : Tree α × Bool × Nat),
        ((res.2.1 = some ref.2.1 ∧ res.1 = ref.1 ∧ res.2.2 = ref.2.2) ∨ (res.2.1 = none ∧ res.1 = c ∧ res.2.2 = n) ∨
          (res.2.1 = none ∧ inorder res.1 = inorder ref.1 ∧ res.2.2 = ref.2.2 ∧ ref.2.1 = true ∧ ∃ d', pl (.balance d') = true)) →
        let res' := Tree.insertEnd pl d x (f res.1) res.2.1 res.2.2
        let ref' := (if ref.2.1 = true then rotateIfNeeded x (f ref.1) else f ref.1, ref.2.1, ref.2.2)
        (res'.2.1 = some ref'.2.1 ∧ res'.1 = ref'.1 ∧ res'.2.2 = ref'.2.2) ∨ (res'.2.1 = none ∧ res'.1 = f c ∧ res'.2.2 = n) ∨
          (res'.2.1 = none ∧ inorder res'.1 = inorder ref'.1 ∧ res'.2.2 = ref'.2.2 ∧ ref'.2.1 = true ∧
            ∃ d', pl (.balance d') = true) := by
      rintro f hf c ⟨t1, b1, n1⟩ ⟨t2, b2, n2⟩ (⟨h1, h2, h3⟩ | ⟨h1, h2, h3⟩ | ⟨h1, h2, h3, h4, h5⟩)
      · simp only at h1 h2 h3
        subst h1 h2 h3
        cases b2 with
        | false => exact .inl ⟨rfl, rfl, rfl⟩
        | true =>
          simp only [Tree.insertEnd, if_true]
          by_cases hb : (Tree.rotateIfNeededT pl d x (f t1)).2 = true
          · refine .inl ⟨by simp [hb], ?_, trivial⟩
            revert hb
            cases f t1 with
            | nil => intro _; rfl
            | node i p v h l r =>
              simp only [Tree.rotateIfNeededT]
              split
              · intro hb; simp at hb
              · intro _; rfl
          · refine .inr (.inr ⟨by simp [hb], ?_, trivial, trivial, d, ?_⟩)
            · rw [inorder_rotateIfNeededT, inorder_rotateIfNeeded]
            · revert hb
              cases f t1 with
              | nil => intro hb; simp [Tree.rotateIfNeededT] at hb
              | node i p v h l r =>
                simp only [Tree.rotateIfNeededT]
                split
                · next hc => intro _; exact hc.2
                · intro hb; simp at hb
      · simp only at h1 h2 h3
        subst h1 h2 h3
        exact .inr (.inl ⟨rfl, rfl, rfl⟩)
      · simp only at h1 h2 h3 h4
        subst h1 h3 h4
        refine .inr (.inr ⟨rfl, ?_, rfl, rfl, h5⟩)
        simp only [Tree.insertEnd, if_true]
        rw [inorder_rotateIfNeeded]
        exact hf _ _ h2
    have hL := hend (fun l => .node i p v h l r) (fun a b e => by simp only [inorder, e]) l _ _ (ihl (d + 1) (some i))
    have hR := hend (fun r => .node i p v h l r) (fun a b e => by simp only [inorder, e]) r _ _ (ihr (d + 1) (some i))
    simp only [Tree.insertT, Tree.insert]
    by_cases p1 : pl (.less d) = true
    · simp only [p1, if_true]
      exact .inr (.inl ⟨trivial, trivial, trivial⟩)
    simp only [p1, if_false, Bool.false_eq_true]
    by_cases h1 : x < v
    · simp only [h1, if_true]
      exact hL
    simp only [h1, if_false]
    by_cases p2 : pl (.greater d) = true
    · simp only [p2, if_true]
      exact .inr (.inl ⟨trivial, trivial, trivial⟩)
    simp only [p2, if_false, Bool.false_eq_true]
    by_cases h2 : v < x
    · simp only [h2, if_true, true_or]
      exact hR
    cases dups with
    | true =>
      simp only [h2, if_true, or_true, if_false]
      exact hR
    | false =>
      simp only [h2, false_or, Bool.false_eq_true, if_false]
      exact .inl ⟨trivial, trivial, trivial⟩

/-- The removal of the least value does not copy anything when the values differ. -/
theorem removeT_head (pl : Plan) (n : Nat) (t : Tree α) : ∀ d m, SSorted (inorder t) → (inorder t).head? = some m →
    (∀ d', ¬ pl (.less d') = true ∧ ¬ pl (.greater d') = true) → (t.removeT pl n d m).2.1 ≠ none := by
  induction t with
  | nil => intro d m _ hh; cases hh
  | node i p v h l r ihl ihr =>
    intro d m hs hh hc
    obtain ⟨hl, hr, hlv, hrv⟩ := (ssorted_iff _ _ _).1 hs
    unfold Tree.removeT
    simp only [(hc d).1, (hc d).2, if_false, Bool.false_eq_true]
    cases hl' : inorder l with
    | nil =>
      have : l = .nil := by
        cases l with
        | nil => rfl
        | node => simp [inorder] at hl'
      subst this
      have : m = v := by simpa [inorder] using hh.symm
      subst this
      simp only [lt_irrefl, if_false]
      cases r <;> simp
    | cons a b =>
      have hm : m = a := by simpa [inorder, hl'] using hh.symm
      subst hm
      have : m < v := hlv m (by rw [hl']; exact List.mem_cons_self)
      simp only [this, if_true]
      have := ihl (d + 1) m hl (by rw [hl']; rfl) hc
      revert this
      cases (Tree.removeT pl n (d + 1) l m).2.1 <;> simp [Tree.removeEnd]

/-- Every `remove` does what the `remove` that does not throw does, or changes nothing, or leaves the value replaced by a greater or
equal one that is then contained once more. -/
theorem removeT_spec (pl : Plan) (n : Nat) (t : Tree α) : ∀ d x, Sorted (inorder t) →
    let res := t.removeT pl n d x
    (res.2.1 = some (t.remove n x).2.1 ∧ res.1 = (t.remove n x).1 ∧ res.2.2 = (t.remove n x).2.2) ∨
    (res.2.1 = none ∧ res.1 = t ∧ res.2.2 = n) ∨
    (res.2.1 = none ∧ res.2.2 = n ∧ Sorted (inorder res.1) ∧ (∃ y ∈ inorder t, x ≤ y ∧ x ∈ inorder t ∧
        (x :: inorder res.1).Perm (y :: inorder t)) ∧
      ((∃ d', pl (.less d') = true ∨ pl (.greater d') = true ∨ pl (.again d') = true) ∨ ¬ SSorted (inorder t))) := by
  induction t with
  | nil => intro d x _; exact .inl ⟨rfl, rfl, rfl⟩
  | node i p v h l r ihl ihr =>
    intro d x hs
    rw [show inorder (.node i p v h l r) = inorder l ++ v :: inorder r from rfl, sorted_iff] at hs
    obtain ⟨hl, hr, hlv, hrv⟩ := hs
    by_cases p1 : pl (.less d) = true
    · unfold Tree.removeT
      simp only [p1, if_true]
      exact .inr (.inl ⟨trivial, trivial, trivial⟩)
    by_cases h1 : x < v
    · unfold Tree.removeT Tree.remove
      simp only [p1, h1, if_true, if_false, Bool.false_eq_true]
      rcases ihl (d + 1) x hl with ⟨e1, e2, e3⟩ | ⟨e1, e2, e3⟩ | ⟨e1, e2, e3, ⟨y, e4, e5, e6, e7⟩, e8⟩
      · rw [e1, e2, e3]; exact .inl ⟨rfl, rfl, rfl⟩
      · rw [e1, e2, e3]; exact .inr (.inl ⟨rfl, rfl, rfl⟩)
      · rw [e1]
        refine .inr (.inr ⟨rfl, e2, ?_, ⟨y, ?_, e5, ?_, ?_⟩, e8.imp_right fun hc hss => hc ((ssorted_iff _ _ _).1 hss).1⟩)
        · show Sorted (inorder (.node i p v h _ r))
          rw [show ∀ a, inorder (.node i p v h a r) = inorder a ++ v :: inorder r from fun _ => rfl, sorted_iff]
          refine ⟨e3, hr, fun z hz => ?_, hrv⟩
          have : z ∈ y :: inorder l := e7.mem_iff.1 (List.mem_cons_of_mem _ hz)
          rcases List.mem_cons.1 this with rfl | hz
          · exact hlv _ e4
          · exact hlv _ hz
        · exact List.mem_append_left _ e4
        · exact List.mem_append_left _ e6
        · exact (e7.append_right (v :: inorder r))
    by_cases p2 : pl (.greater d) = true
    · unfold Tree.removeT
      simp only [p1, h1, p2, if_true, if_false, Bool.false_eq_true]
      exact .inr (.inl ⟨trivial, trivial, trivial⟩)
    by_cases h2 : v < x
    · unfold Tree.removeT Tree.remove
      simp only [p1, p2, h1, h2, if_true, if_false, Bool.false_eq_true]
      rcases ihr (d + 1) x hr with ⟨e1, e2, e3⟩ | ⟨e1, e2, e3⟩ | ⟨e1, e2, e3, ⟨y, e4, e5, e6, e7⟩, e8⟩
      · rw [e1, e2, e3]; exact .inl ⟨rfl, rfl, rfl⟩
      · rw [e1, e2, e3]; exact .inr (.inl ⟨rfl, rfl, rfl⟩)
      · rw [e1]
        refine .inr (.inr ⟨rfl, e2, ?_, ⟨y, ?_, e5, ?_, ?_⟩, e8.imp_right fun hc hss => hc ((ssorted_iff _ _ _).1 hss).2.1⟩)
        · show Sorted (inorder (.node i p v h l _))
          rw [show ∀ a, inorder (.node i p v h l a) = inorder l ++ v :: inorder a from fun _ => rfl, sorted_iff]
          refine ⟨hl, e3, hlv, fun z hz => ?_⟩
          have : z ∈ y :: inorder r := e7.mem_iff.1 (List.mem_cons_of_mem _ hz)
          rcases List.mem_cons.1 this with rfl | hz
          · exact hrv _ e4
          · exact hrv _ hz
        · exact List.mem_append_right _ (List.mem_cons_of_mem _ e4)
        · exact List.mem_append_right _ (List.mem_cons_of_mem _ e6)
        · show (x :: (inorder l ++ v :: inorder _)).Perm (y :: (inorder l ++ v :: inorder r))
          have a1 : ∀ (z : α) (m : List α), (z :: (inorder l ++ v :: m)).Perm (inorder l ++ v :: (z :: m)) := by
            intro z m
            have := (List.perm_middle (l₁ := inorder l ++ [v]) (l₂ := m) (a := z)).symm
            simpa using this
          exact (a1 x _).trans (((e7.cons v).append_left _).trans (a1 y _).symm)
    have hxv : x = v := le_antisymm (not_lt.1 h2) (not_lt.1 h1)
    subst hxv
    unfold Tree.removeT Tree.remove
    simp only [p1, p2, h1, if_false, Bool.false_eq_true]
    match l, r, ihr, hl, hr, hlv, hrv with
    | .nil, .nil, _, _, _, _, _ => exact .inl ⟨rfl, rfl, rfl⟩
    | .node .., .nil, _, _, _, _, _ => exact .inl ⟨rfl, rfl, rfl⟩
    | .nil, .node .., _, _, _, _, _ => exact .inl ⟨rfl, rfl, rfl⟩
    | .node li lp lv lh ll lr, .node ri rp rv rh rl rr, ihr, hl, hr, hlv, hrv =>
      simp only
      have hm := leftmost_eq (.node ri rp rv rh rl rr)
      generalize hl' : (Tree.node li lp lv lh ll lr) = l at *
      generalize hr' : (Tree.node ri rp rv rh rl rr) = r at *
      rw [hm]
      cases hh : (inorder r).head? with
      | none => exact .inl ⟨rfl, rfl, rfl⟩
      | some m =>
        obtain ⟨rest, hrest⟩ : ∃ rest, inorder r = m :: rest := by
          cases hi : inorder r with
          | nil => rw [hi] at hh; cases hh
          | cons a b => rw [hi] at hh; cases hh; exact ⟨b, rfl⟩
        have hmr : m ∈ inorder r := by rw [hrest]; exact List.mem_cons_self
        have hxm : x ≤ m := hrv m hmr
        have hmin : ∀ z ∈ inorder r, m ≤ z := by
          intro z hz
          rw [hrest] at hz hr
          rcases List.mem_cons.1 hz with rfl | hz
          · exact le_refl _
          · exact (List.pairwise_cons.1 hr).1 z hz
        have hmid : ∀ (y : α) (l' : List α), (x :: (inorder l ++ y :: l')).Perm (y :: (inorder l ++ x :: l')) := by
          intro y l'
          have e1 : (inorder l ++ y :: l').Perm (y :: (inorder l ++ l')) := List.perm_middle
          have e2 : (inorder l ++ x :: l').Perm (x :: (inorder l ++ l')) := List.perm_middle
          exact (e1.cons x).trans ((List.Perm.swap y x _).trans (e2.symm.cons y))
        simp only
        by_cases p3 : pl (.take d) = true
        · simp only [p3, if_true]
          exact .inr (.inl ⟨trivial, trivial, trivial⟩)
        by_cases p4 : pl (.again d) = true
        · simp only [p3, p4, if_true, if_false, Bool.false_eq_true]
          refine .inr (.inr ⟨trivial, trivial, ?_, ⟨m, ?_, hxm, ?_, hmid m _⟩, .inl ⟨d, .inr (.inr p4)⟩⟩)
          · show Sorted (inorder l ++ m :: inorder r)
            rw [sorted_iff]
            exact ⟨hl, hr, fun z hz => le_trans (hlv z hz) hxm, hmin⟩
          · exact List.mem_append_right _ (List.mem_cons_of_mem _ hmr)
          · exact List.mem_append_right _ List.mem_cons_self
        simp only [p3, p4, if_false, Bool.false_eq_true]
        rcases ihr (d + 1) m hr with ⟨e1, e2, e3⟩ | ⟨e1, e2, e3⟩ | ⟨e1, e2, e3, ⟨y, e4, e5, e6, e7⟩, e8⟩
        · rw [e1, e2, e3]; exact .inl ⟨rfl, rfl, rfl⟩
        · rw [e1, e2, e3]
          refine .inr (.inr ⟨rfl, rfl, ?_, ⟨m, ?_, hxm, ?_, hmid m _⟩, ?_⟩)
          · show Sorted (inorder l ++ m :: inorder r)
            rw [sorted_iff]
            exact ⟨hl, hr, fun z hz => le_trans (hlv z hz) hxm, hmin⟩
          · exact List.mem_append_right _ (List.mem_cons_of_mem _ hmr)
          · exact List.mem_append_right _ List.mem_cons_self
          · by_cases hc : ∃ d', pl (.less d') = true ∨ pl (.greater d') = true
            · obtain ⟨d', hc⟩ := hc
              exact .inl ⟨d', hc.elim .inl (fun hc => .inr (.inl hc))⟩
            · refine .inr fun hss => removeT_head pl n r (d + 1) m ((ssorted_iff _ _ _).1 hss).2.1 hh ?_ e1
              exact fun d' => ⟨fun h => hc ⟨d', .inl h⟩, fun h => hc ⟨d', .inr h⟩⟩
        · rw [e1]
          refine .inr (.inr ⟨rfl, e2, ?_, ⟨y, ?_, le_trans hxm e5, ?_, ?_⟩, e8.imp_right fun hc hss => hc ((ssorted_iff _ _ _).1 hss).2.1⟩)
          · show Sorted (inorder l ++ m :: inorder _)
            rw [sorted_iff]
            refine ⟨hl, e3, fun z hz => le_trans (hlv z hz) hxm, fun z hz => ?_⟩
            have : z ∈ y :: inorder r := e7.mem_iff.1 (List.mem_cons_of_mem _ hz)
            rcases List.mem_cons.1 this with rfl | hz
            · exact e5
            · exact hmin _ hz
          · exact List.mem_append_right _ (List.mem_cons_of_mem _ e4)
          · exact List.mem_append_right _ List.mem_cons_self
          · show (x :: (inorder l ++ m :: inorder _)).Perm (y :: (inorder l ++ x :: inorder r))
            have e9 : (inorder l ++ m :: inorder (Tree.removeT pl n (d + 1) r m).1).Perm (inorder l ++ y :: inorder r) := e7.append_left _
            exact (e9.cons x).trans (hmid y _)

/-! ### Histories with exceptions -/

/-- binary_tree.h:505-511 `remove_all`; `pls` has the plans of the rounds.  `none` if `fuel` rounds are not enough. -/
def Avl.removeAllFuelT (pls : Nat → Plan) : Nat → Nat → Avl α → α → Nat → Option (Avl α × Option Nat)
  | 0, _, _, _, _ => none
  | fuel + 1, k, a, x, cnt =>
    match a.removeT (pls k) x with
    | (a, none) => some (a, none)
    | (a, some true) => removeAllFuelT pls fuel (k + 1) a x (cnt + 1)
    | (a, some false) => some (a, some cnt)

/-- One call; the result is `none` when it throws. -/
def stepT (pls : Nat → Plan) (a : Avl α) : Op α → Res (Avl α × Option Out)
  | .insert x => .ok ((a.insertT (pls 0) x).1, (a.insertT (pls 0) x).2.map .bool)
  | .remove x => .ok ((a.removeT (pls 0) x).1, (a.removeT (pls 0) x).2.map .bool)
  | .removeAll x =>
    match a.removeAllFuelT pls (Avl.nodes a.root + 1) 0 x 0 with
    | some (a, r) => .ok (a, r.map .count)
    | none => .ub
  | .clear => .ok (a.clear, some .unit)
  | .enableDuplicates => .ok ({ a with dups := true }, some .unit)
  | .disableDuplicates => .ok ({ a with dups := false }, some .unit)

/-- A history; the program goes on after an exception. -/
def runT (a : Avl α) : List (Op α × (Nat → Plan)) → Res (Avl α × List (Option Out))
  | [] => .ok (a, [])
  | (op, pls) :: ops => do
    let (a, o) ← stepT pls a op
    let (a, os) ← runT a ops
    .ok (a, o :: os)

namespace Spec

/-- A removal of `x` that was left half-way: a value `y` that is not less took its place and is contained once more. -/
def MSet.torn (s : MSet α) (x y : α) : MSet α :=
  { s with mult := fun z => (if z = x then s.mult z - 1 else s.mult z) + if z = y then 1 else 0 }

/-- What a call that throws may leave behind. -/
inductive Torn : MSet α → Op α → MSet α → Prop
  | same (s op) : Torn s op s
  | inserted (s x) : (s.dups = true ∨ s.mult x = 0) → Torn s (.insert x) (s.step (.insert x)).1
  | replaced (s x y) : 0 < s.mult x → 0 < s.mult y → x ≤ y → Torn s (.remove x) (s.torn x y)
  | later (s x s') : 0 < s.mult x → Torn (s.step (.remove x)).1 (.removeAll x) s' → Torn s (.removeAll x) s'
  | round (s x s') : Torn s (.remove x) s' → Torn s (.removeAll x) s'

/-- A history in which some calls throw: the others do what they promise on what the former left behind. -/
inductive TornRun : MSet α → List (Op α) → List (Option Out) → MSet α → Prop
  | nil (s) : TornRun s [] [] s
  | done (s op ops os s') : TornRun (s.step op).1 ops os s' → TornRun s (op :: ops) (some (s.step op).2 :: os) s'
  | threw (s op ops os s1 s2) : Torn s op s1 → TornRun s1 ops os s2 → TornRun s (op :: ops) (none :: os) s2

end Spec

theorem sim_insertT {a : Avl α} {s : MSet α} (h : Sim a s) (pl : Plan) (x : α) :
    ((a.insertT pl x).2.map Out.bool = some (s.step (.insert x)).2 ∧ Sim (a.insertT pl x).1 (s.step (.insert x)).1) ∨
    ((a.insertT pl x).2 = none ∧ ∃ s', Torn s (.insert x) s' ∧ Sim (a.insertT pl x).1 s') := by
  obtain ⟨h1, h2⟩ := sim_insert h x
  have key := insertT_spec pl a.dups a.next x a.size a.root 0 none
  have hs := insert_spec a.dups a.next x a.size a.root none h.sorted
  unfold Avl.insertT
  unfold Avl.insert at h1 h2
  simp only at key hs h1 h2 ⊢
  rcases key with ⟨e1, e2, e3⟩ | ⟨e1, e2, e3⟩ | ⟨e1, e2, e3, e4, -⟩
  · rw [e1, e2, e3]
    exact .inl ⟨by rw [← h2]; rfl, h1⟩
  · rw [e1, e2, e3]
    exact .inr ⟨rfl, s, .same _ _, ⟨h.sorted, h.mult, h.dups, h.size⟩⟩
  · rw [e1, e3]
    refine .inr ⟨rfl, _, .inserted s x ?_, ⟨?_, fun y => ?_, h1.dups, ?_⟩⟩
    · rcases hs.1.1 e4 with hd | hm
      · exact .inl (by rw [← h.dups]; exact hd)
      · exact .inr (by rw [← h.mult, List.count_eq_zero]; exact hm)
    · show Sorted (inorder _)
      rw [e2]; exact h1.sorted
    · show (inorder _).count y = _
      rw [e2]; exact h1.mult y
    · show _ = (inorder _).length % W
      rw [e2]; exact h1.size

theorem sim_removeT {a : Avl α} {s : MSet α} (h : Sim a s) (pl : Plan) (x : α) :
    ((a.removeT pl x).2 = some (a.remove x).2 ∧ (a.removeT pl x).1 = (a.remove x).1) ∨
    ((a.removeT pl x).2 = none ∧ ∃ s', Torn s (.remove x) s' ∧ Sim (a.removeT pl x).1 s') := by
  have key := removeT_spec pl a.size a.root 0 x h.sorted
  unfold Avl.removeT Avl.remove
  simp only at key ⊢
  rcases key with ⟨e1, e2, e3⟩ | ⟨e1, e2, e3⟩ | ⟨e1, e2, e3, ⟨y, e4, e5, e6, e7⟩, -⟩
  · rw [e1, e2, e3]
    exact .inl ⟨rfl, rfl⟩
  · rw [e1, e2, e3]
    exact .inr ⟨rfl, s, .same _ _, ⟨h.sorted, h.mult, h.dups, h.size⟩⟩
  · rw [e1, e2]
    refine .inr ⟨rfl, s.torn x y, .replaced s x y ((h.mem x).1 e6) ((h.mem y).1 e4) e5, ⟨e3, fun z => ?_, h.dups, ?_⟩⟩
    · have hc := e7.count_eq z
      rw [List.count_cons, List.count_cons, h.mult z] at hc
      have hx := (h.mem x).1 e6
      show (inorder _).count z = (if z = x then s.mult z - 1 else s.mult z) + if z = y then 1 else 0
      have b1 : ∀ w : α, (if (w == z) = true then 1 else 0) = if z = w then 1 else 0 := by
        intro w
        by_cases hw : z = w
        · simp [hw]
        · simp [hw, Ne.symm hw]
      rw [b1, b1] at hc
      by_cases hzx : z = x
      · subst hzx
        simp only [if_true] at hc ⊢
        omega
      · simp only [hzx, if_false] at hc ⊢
        omega
    · show a.size = (inorder _).length % W
      have := e7.length_eq
      simp only [List.length_cons] at this
      exact h.size.trans (by
        show (inorder a.root).length % W = (inorder (removeT pl a.size 0 a.root x).1).length % W
        rw [show (inorder (removeT pl a.size 0 a.root x).1).length = (inorder a.root).length by omega])

theorem sim_removeAllT (pls : Nat → Plan) (x : α) : ∀ (fuel k : Nat) (a : Avl α) (s : MSet α) (cnt : Nat), Sim a s →
    s.mult x < fuel →
    (∃ a', a.removeAllFuelT pls fuel k x cnt = some (a', some (cnt + s.mult x)) ∧ Sim a' (s.step (.removeAll x)).1) ∨
    (∃ a' s', a.removeAllFuelT pls fuel k x cnt = some (a', none) ∧ Torn s (.removeAll x) s' ∧ Sim a' s') := by
  intro fuel
  induction fuel with
  | zero => intro k a s cnt _ hf; omega
  | succ fuel ih =>
    intro k a s cnt h hf
    unfold Avl.removeAllFuelT
    rcases sim_removeT h (pls k) x with ⟨e1, e2⟩ | ⟨e1, s', e2, e3⟩
    · obtain ⟨r1, r2⟩ := sim_remove h x
      generalize a.removeT (pls k) x = res at e1 e2 ⊢
      obtain ⟨a', b⟩ := res
      simp only at e1 e2
      subst e1 e2
      by_cases h0 : s.mult x = 0
      · simp only [MSet.step, h0, if_true] at r1 r2
        simp only [Out.bool.injEq] at r2
        rw [r2]
        refine .inl ⟨_, by rw [h0]; rfl, ?_⟩
        have : (s.step (.removeAll x)).1 = s := by
          simp only [MSet.step]
          congr 1
          funext y
          by_cases hy : y = x
          · rw [hy, if_pos rfl, h0]
          · rw [if_neg hy]
        rw [this]; exact r1
      · have hst : s.step (.remove x) = ({ s with mult := fun y => if y = x then s.mult x - 1 else s.mult y }, .bool true) := by
          simp only [MSet.step, h0, if_false]
        rw [hst] at r1 r2
        simp only [Out.bool.injEq] at r2
        rw [r2]
        simp only
        rcases ih (k + 1) _ _ (cnt + 1) r1 (by simp only [if_true]; omega) with ⟨a', q1, q2⟩ | ⟨a', s', q1, q2, q3⟩
        · refine .inl ⟨a', ?_, ?_⟩
          · rw [q1]
            simp only [if_true]
            congr 3
            omega
          · have : (MSet.step { s with mult := fun y => if y = x then s.mult x - 1 else s.mult y } (.removeAll x)).1 =
                (s.step (.removeAll x)).1 := by
              simp only [MSet.step]
              congr 1
              funext y
              by_cases hy : y = x
              · simp [hy]
              · simp [hy]
            rw [← this]; exact q2
        · refine .inr ⟨a', s', q1, .later s x s' (by omega) ?_, q3⟩
          rw [hst]; exact q2
    · generalize a.removeT (pls k) x = res at e1 e3 ⊢
      obtain ⟨a', b⟩ := res
      simp only at e1 e3
      subst e1
      exact .inr ⟨a', s', rfl, .round _ _ _ e2, e3⟩

theorem sim_stepT {a : Avl α} {s : MSet α} (h : Sim a s) (pls : Nat → Plan) (op : Op α) :
    (∃ a', stepT pls a op = .ok (a', some (s.step op).2) ∧ Sim a' (s.step op).1) ∨
    (∃ a' s', stepT pls a op = .ok (a', none) ∧ Torn s op s' ∧ Sim a' s') := by
  cases op with
  | insert x =>
    rcases sim_insertT h (pls 0) x with ⟨e1, e2⟩ | ⟨e1, s', e2, e3⟩
    · exact .inl ⟨_, by simp only [stepT, e1], e2⟩
    · exact .inr ⟨_, s', by simp only [stepT, e1]; rfl, e2, e3⟩
  | remove x =>
    rcases sim_removeT h (pls 0) x with ⟨e1, e2⟩ | ⟨e1, s', e2, e3⟩
    · obtain ⟨r1, r2⟩ := sim_remove h x
      exact .inl ⟨_, by simp only [stepT, e1, e2, Option.map_some, r2], r1⟩
    · exact .inr ⟨_, s', by simp only [stepT, e1]; rfl, e2, e3⟩
  | removeAll x =>
    have hf : s.mult x < Avl.nodes a.root + 1 := by
      rw [nodes_eq, ← h.mult x]
      exact Nat.lt_succ_of_le List.count_le_length
    rcases sim_removeAllT pls x _ 0 a s 0 h hf with ⟨a', e1, e2⟩ | ⟨a', s', e1, e2, e3⟩
    · refine .inl ⟨a', ?_, e2⟩
      simp only [stepT, e1, Nat.zero_add, Option.map_some]
      rfl
    · exact .inr ⟨a', s', by simp only [stepT, e1, Option.map_none], e2, e3⟩
  | clear => exact .inl ⟨_, rfl, List.Pairwise.nil, fun _ => rfl, h.dups, rfl⟩
  | enableDuplicates => exact .inl ⟨_, rfl, h.sorted, h.mult, rfl, h.size⟩
  | disableDuplicates => exact .inl ⟨_, rfl, h.sorted, h.mult, rfl, h.size⟩

/-- **C155, full statement:** a call on an AVL tree that throws has no effect on what the tree contains, so that a history is the history of
the calls that did not throw. -/
def C155_statement : Prop :=
  ∀ (ops : List (Op Nat × (Nat → Plan))) (a : Avl Nat) (os : List (Option Out)), runT Avl.new ops = .ok (a, os) →
    ∀ (op : Op Nat) (pls : Nat → Plan) (a' : Avl Nat), stepT pls a op = .ok (a', none) →
      inorder a'.root = inorder a.root ∧ a'.size = a.size

/-- **C155, partial.** What always holds, whatever throws: the tree stays sorted, `size()` stays the number of its elements, every call that does
not throw does what it promises on what the former calls left behind, and a call that throws leaves the contents as they were, or (`insert`) with the new value,
or (`remove`) with the removed value replaced by a second copy of a greater one. Missing: that it leaves the contents as they were. -/
theorem C155_basic_partial (ops : List (Op α × (Nat → Plan))) : ∃ a os s, runT (Avl.new : Avl α) ops = .ok (a, os) ∧
    TornRun MSet.empty (ops.map Prod.fst) os s ∧
    (inorder a.root).Pairwise (· ≤ ·) ∧ (∀ x, (inorder a.root).count x = s.mult x) ∧ a.size = (inorder a.root).length % W ∧
    ∀ x, a.root.contains x = true ↔ 0 < s.mult x := by
  have key : ∀ (ops : List (Op α × (Nat → Plan))) (a : Avl α) (s : MSet α), Sim a s →
      ∃ a' os s', runT a ops = .ok (a', os) ∧ TornRun s (ops.map Prod.fst) os s' ∧ Sim a' s' := by
    intro ops
    induction ops with
    | nil => intro a s h; exact ⟨a, [], s, rfl, .nil s, h⟩
    | cons o ops ih =>
      intro a s h
      obtain ⟨op, pls⟩ := o
      rcases sim_stepT h pls op with ⟨a1, e1, e2⟩ | ⟨a1, s1, e1, e2, e3⟩
      · obtain ⟨a', os, s', q1, q2, q3⟩ := ih a1 _ e2
        refine ⟨a', some (s.step op).2 :: os, s', ?_, .done _ _ _ _ _ q2, q3⟩
        simp only [runT, e1, Res.bind_ok, q1]
      · obtain ⟨a', os, s', q1, q2, q3⟩ := ih a1 _ e3
        refine ⟨a', none :: os, s', ?_, .threw _ _ _ _ _ _ e2 q2, q3⟩
        simp only [runT, e1, Res.bind_ok, q1]
  obtain ⟨a, os, s, h1, h2, h3⟩ := key ops _ _ sim_new
  refine ⟨a, os, s, h1, h2, h3.sorted, h3.mult, h3.size, fun x => ?_⟩
  rw [contains_spec x _ h3.sorted, h3.mem]

/-- **C155, partial.** Unless the comparison of `rotate_if_needed` throws (binary_tree.h:793, 801), an `insert` that throws leaves the whole tree as it was.
Missing: that comparison, which comes after the insertion. -/
theorem C155_insert_partial (a : Avl α) (pl : Plan) (x : α) (hc : ∀ d, pl (.balance d) = false)
    (ht : (a.insertT pl x).2 = none) : (a.insertT pl x).1 = { a with next := a.next + 1 } := by
  have key := insertT_spec pl a.dups a.next x a.size a.root 0 none
  unfold Avl.insertT at ht ⊢
  simp only at key ht ⊢
  rcases key with ⟨e1, -, -⟩ | ⟨-, e2, e3⟩ | ⟨-, -, -, -, d, e⟩
  · rw [e1] at ht; cases ht
  · rw [e2, e3]
  · rw [hc] at e; cases e

/-- **C155, partial.** In a tree without duplicates, when only the copy and the assignment of the successor throw (binary_tree.h:905), a `remove` that
throws leaves the whole tree as it was. Missing: comparisons and the second copy (binary_tree.h:906), which come after the value was replaced. -/
theorem C155_remove_partial (a : Avl α) (pl : Plan) (x : α) (hs : (inorder a.root).Pairwise (· < ·))
    (hc : ∀ d, pl (.less d) = false ∧ pl (.greater d) = false ∧ pl (.again d) = false)
    (ht : (a.removeT pl x).2 = none) : (a.removeT pl x).1 = a := by
  have key := removeT_spec pl a.size a.root 0 x (SSorted.sorted hs)
  unfold Avl.removeT at ht ⊢
  simp only at key ht ⊢
  rcases key with ⟨e1, -, -⟩ | ⟨-, e2, e3⟩ | ⟨-, -, -, -, ⟨d, e⟩ | e⟩
  · rw [e1] at ht; cases ht
  · rw [e2, e3]
  · obtain ⟨c1, c2, c3⟩ := hc d
    rw [c1, c2, c3] at e
    simp at e
  · exact absurd hs e

/-- `contains` that throws has no effect; when it does not throw it is `contains`. -/
theorem C155_contains (pl : Plan) (x : α) (t : Tree α) : ∀ d, t.containsT pl x d = none ∨ t.containsT pl x d = some (t.contains x) := by
  induction t with
  | nil => intro d; exact .inr rfl
  | node i p v h l r ihl ihr =>
    intro d
    simp only [Tree.containsT, Tree.contains]
    by_cases p1 : pl (.less d) = true
    · simp [p1]
    by_cases h1 : x < v
    · simp only [p1, h1, if_true, if_false, Bool.false_eq_true]; exact ihl _
    by_cases p2 : pl (.greater d) = true
    · simp [p1, p2, h1]
    by_cases h2 : v < x
    · simp only [p1, p2, h1, h2, if_true, if_false, Bool.false_eq_true]; exact ihr _
    by_cases p3 : pl (.balance d) = true
    · simp [p1, p2, p3, h1, h2]
    · simp [p1, p2, p3, h1, h2]

/-- The plan in which one point throws. -/
def onlyAt (p : Pt) : Nat → Plan := fun _ q => q == p
/-- The plan in which nothing throws. -/
def never : Nat → Plan := fun _ _ => false

/-- **C155, counterexample:** the claim fails for `remove`: from the set 1, 2, 3 the removal of 2 throws when 3 is compared with itself; the tree then
contains 3 twice, though duplicates are not allowed, and 2 not at all. -/
theorem C155_counterexample : ¬ C155_statement := by
  intro h
  have := h [(.insert 2, never), (.insert 1, never), (.insert 3, never)] _ _ rfl (.remove 2) (onlyAt (.less 1)) _ rfl
  revert this
  decide +kernel

/-- The set after that: 1, 3, 3. -/
theorem C155_counterexample_remove : ∃ a, runT (Avl.new : Avl Nat)
      [(.insert 2, never), (.insert 1, never), (.insert 3, never), (.remove 2, onlyAt (.less 1))] =
        .ok (a, [some (.bool true), some (.bool true), some (.bool true), none]) ∧
    inorder a.root = [1, 3, 3] ∧ a.dups = false := ⟨_, rfl, by decide +kernel, rfl⟩

/-- **C155, counterexample:** the claim fails for `insert`: it throws, but the value is in the tree; the tree is not balanced, `height()` is not its height,
and later insertions that do not throw do not balance it. -/
theorem C155_counterexample_insert :
    (∃ a, runT (Avl.new : Avl Nat)
        [(.insert 4, never), (.insert 2, never), (.insert 5, never), (.insert 1, never), (.insert 0, onlyAt (.balance 1))] =
          .ok (a, [some (.bool true), some (.bool true), some (.bool true), some (.bool true), none]) ∧
      inorder a.root = [0, 1, 2, 4, 5] ∧ a.height = 3 ∧ Spec.depth a.root = 4 ∧
      (match a.root with | .node _ _ _ _ l _ => l.height | .nil => 0) = 3 ∧ ¬ BalancedBy 1 a.root) ∧
    (∃ a os, runT (Avl.new : Avl Nat)
        [(.insert 4, never), (.insert 2, never), (.insert 5, never), (.insert 1, never), (.insert 0, onlyAt (.balance 1)),
          (.insert 10, never), (.insert 11, never), (.insert 12, never)] = .ok (a, os) ∧ ¬ BalancedBy 1 a.root) :=
  ⟨⟨_, rfl, by decide +kernel, by decide +kernel, by decide +kernel, by decide +kernel, by decide +kernel⟩, ⟨_, _, rfl, by decide +kernel⟩⟩

/-- The hypotheses of the partial theorems can be met: 2 has two children, and the copy of its successor throws. -/
example : ((⟨.node 0 none 2 2 (.node 1 (some 0) 1 1 .nil .nil) (.node 2 (some 0) 3 1 .nil .nil), false, 3, 3⟩ : Avl Nat).removeT
    (onlyAt (.take 0) 0) 2).2 = none := by decide +kernel

end Verif.Avl
