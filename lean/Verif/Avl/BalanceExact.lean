import Verif.Avl.Props

/-!
C35 and C36 exactly: which removals, and which insertions of values already present, destroy the balance of `avl_tree_t`
(binary_tree.h:788-925).
-/

namespace Verif.Avl
open Spec Tree
set_option linter.unusedSectionVars false
variable {α : Type}

namespace Spec

/-- What one removal does to a balanced subtree: its depth stays, shrinks by one, or its balance is lost. -/
inductive Fate
  | same | less | broken
deriving DecidableEq, Repr

/-- The fate of a node one of whose subtrees, of depth `d`, had the fate `f`. The other subtree has depth `e`; its subtrees have the depths `inner`
(on the side of the removal) and `outer`, and the one of the inner subtree that is farther from the removal has depth `far`. If the removal
leaves the two depths two apart, the node is rotated; `outer = inner` is the case that the code overlooks: it rotates twice, which separates
the subtrees of depths `far` and `outer` from the rest. -/
def fateAt (f : Fate) (d e outer inner far : Nat) : Fate :=
  match f with
  | .broken => .broken
  | .same => .same
  | .less =>
    if d = e + 1 then .less
    else if d = e then .same
    else if outer = inner ∧ far + 2 = inner then .broken
    else if outer = inner then .same
    else .less

/-- Depth of a subtree given by a path: `false` left, `true` right. -/
def depthAt : Tree α → List Bool → Nat
  | t, [] => depth t
  | .nil, _ :: _ => 0
  | .node _ _ _ _ l r, b :: p => depthAt (if b then r else l) p

variable [LinearOrder α]

/-- The least value. -/
def least : Tree α → Option α
  | .nil => none
  | .node _ _ v _ .nil _ => some v
  | .node _ _ _ _ (.node i p w h l r) _ => least (.node i p w h l r)

/-- The fate of a tree from which `x` is removed: a value with two children is replaced by the least value of the right subtree. -/
def fate : Tree α → α → Fate
  | .nil, _ => .same
  | .node _ _ v _ l r, x =>
    if x < v then fateAt (fate l x) (depth l) (depth r) (depthAt r [true]) (depthAt r [false]) (depthAt r [false, true])
    else
      let right := fun x => fateAt (fate r x) (depth r) (depth l) (depthAt l [false]) (depthAt l [true]) (depthAt l [true, false])
      if v < x then right x
      else
        match l, least r with
        | .nil, _ => .less
        | .node .., none => .less
        | .node .., some m => right m

end Spec

/-- What a fate says about the tree afterwards. -/
def Meets (f : Fate) (d : Nat) (t : Tree α) : Prop :=
  match f with
  | .same => BalancedBy 1 t ∧ depth t = d
  | .less => BalancedBy 1 t ∧ depth t + 1 = d
  | .broken => ¬ BalancedBy 1 t ∧ depth t = d

theorem least_eq (t : Tree α) [LinearOrder α] : t.leftmost = least t := by
  induction t with
  | nil => rfl
  | node i p v h l r ihl ihr =>
    cases l with
    | nil => rfl
    | node => exact ihl

theorem not_bal_node {i p v h} {l r : Tree α} (h1 : ¬ BalancedBy 1 l ∨ ¬ BalancedBy 1 r) : ¬ BalancedBy 1 (.node i p v h l r) := by
  rintro ⟨_, _, hl, hr⟩
  exact h1.elim (fun h => h hl) (fun h => h hr)

variable [LinearOrder α]

/-- The step to a node whose left subtree became `l`. -/
theorem meets_left {i p v h} {l r : Tree α} {d : Nat} {f : Fate} (hl : HeightsExact l) (hr : HeightsExact r)
    (hm : Meets f d l) (br : BalancedBy 1 r) (b1 : d ≤ depth r + 1) (b2 : depth r ≤ d + 1) :
    Meets (fateAt f d (depth r) (depthAt r [true]) (depthAt r [false]) (depthAt r [false, true])) (max d (depth r) + 1)
      (rotateOnRemove (.node i p v h l r)) := by
  cases f with
  | broken =>
    obtain ⟨m1, m2⟩ := hm
    rw [rotateOnRemove_same hl hr (by omega) (by omega)]
    exact ⟨not_bal_node (.inl m1), by simp only [depth]; omega⟩
  | same =>
    obtain ⟨m1, m2⟩ := hm
    rw [rotateOnRemove_same hl hr (by omega) (by omega)]
    exact ⟨⟨by omega, by omega, m1, br⟩, by simp only [depth]; omega⟩
  | less =>
    obtain ⟨m1, m2⟩ := hm
    simp only [fateAt]
    by_cases h1 : d = depth r + 1
    · rw [if_pos h1, rotateOnRemove_same hl hr (by omega) (by omega)]
      exact ⟨⟨by omega, by omega, m1, br⟩, by simp only [depth]; omega⟩
    · rw [if_neg h1]
      by_cases h2 : d = depth r
      · rw [if_pos h2, rotateOnRemove_same hl hr (by omega) (by omega)]
        exact ⟨⟨by omega, by omega, m1, br⟩, by simp only [depth]; omega⟩
      · rw [if_neg h2]
        obtain ⟨t', e⟩ : ∃ t', t' = rotateOnRemove (.node i p v h l r) := ⟨_, rfl⟩
        rw [← e]
        simp only [rotateOnRemove] at e
        rw [height_eq hl, height_eq hr, if_neg (by omega), if_pos (by omega)] at e
        cases r with
        | nil => simp only [depth] at *; omega
        | node i2 p2 v2 h2' l2 r2 =>
          obtain ⟨c1, c2, bl2, br2⟩ := br
          obtain ⟨_, hl2, hr2⟩ := hr
          simp only [depthAt] at e ⊢
          rw [height_eq hl2, height_eq hr2] at e
          by_cases h3 : depth r2 = depth l2 + 1
          · rw [if_pos h3] at e
            rw [if_neg (by simp only [if_true, Bool.false_eq_true, if_false]; omega),
              if_neg (by simp only [if_true, Bool.false_eq_true, if_false]; omega), e]
            simp only [rotateLeft, Meets, BalancedBy, depth] at *
            exact ⟨⟨by omega, by omega, ⟨by omega, by omega, m1, bl2⟩, br2⟩, by omega⟩
          · rw [if_neg h3] at e
            cases l2 with
            | nil => simp only [depth] at *; omega
            | node i3 p3 v3 h3' l3 r3 =>
              obtain ⟨c3, c4, bl3, br3⟩ := bl2
              simp only [if_true, Bool.false_eq_true, if_false]
              rw [e]
              by_cases h4 : depth r2 = max (depth l3) (depth r3) + 1
              · by_cases h5 : depth r3 + 2 = max (depth l3) (depth r3) + 1
                · rw [if_pos (by simp only [depthAt, depth, if_true]; omega)]
                  simp only [doubleRotateLeft, rotateLeft, rotateRight, Meets, BalancedBy, depth] at *
                  refine ⟨fun hb => ?_, by omega⟩
                  have := hb.2.2.2.2.1
                  omega
                · rw [if_neg (by simp only [depthAt, depth, if_true]; omega), if_pos (by simp only [depth]; omega)]
                  simp only [doubleRotateLeft, rotateLeft, rotateRight, Meets, BalancedBy, depth] at *
                  exact ⟨⟨by omega, by omega, ⟨by omega, by omega, m1, bl3⟩, by omega, by omega, br3, br2⟩, by omega⟩
              · rw [if_neg (by simp only [depthAt, depth]; omega), if_neg (by simp only [depth]; omega)]
                simp only [doubleRotateLeft, rotateLeft, rotateRight, Meets, BalancedBy, depth] at *
                exact ⟨⟨by omega, by omega, ⟨by omega, by omega, m1, bl3⟩, by omega, by omega, br3, br2⟩, by omega⟩

/-- The mirror image. -/
theorem meets_right {i p v h} {l r : Tree α} {d : Nat} {f : Fate} (hl : HeightsExact l) (hr : HeightsExact r)
    (hm : Meets f d r) (bl : BalancedBy 1 l) (b1 : d ≤ depth l + 1) (b2 : depth l ≤ d + 1) :
    Meets (fateAt f d (depth l) (depthAt l [false]) (depthAt l [true]) (depthAt l [true, false])) (max (depth l) d + 1)
      (rotateOnRemove (.node i p v h l r)) := by
  cases f with
  | broken =>
    obtain ⟨m1, m2⟩ := hm
    rw [rotateOnRemove_same hl hr (by omega) (by omega)]
    exact ⟨not_bal_node (.inr m1), by simp only [depth]; omega⟩
  | same =>
    obtain ⟨m1, m2⟩ := hm
    rw [rotateOnRemove_same hl hr (by omega) (by omega)]
    exact ⟨⟨by omega, by omega, bl, m1⟩, by simp only [depth]; omega⟩
  | less =>
    obtain ⟨m1, m2⟩ := hm
    simp only [fateAt]
    by_cases h1 : d = depth l + 1
    · rw [if_pos h1, rotateOnRemove_same hl hr (by omega) (by omega)]
      exact ⟨⟨by omega, by omega, bl, m1⟩, by simp only [depth]; omega⟩
    · rw [if_neg h1]
      by_cases h2 : d = depth l
      · rw [if_pos h2, rotateOnRemove_same hl hr (by omega) (by omega)]
        exact ⟨⟨by omega, by omega, bl, m1⟩, by simp only [depth]; omega⟩
      · rw [if_neg h2]
        obtain ⟨t', e⟩ : ∃ t', t' = rotateOnRemove (.node i p v h l r) := ⟨_, rfl⟩
        rw [← e]
        simp only [rotateOnRemove] at e
        rw [height_eq hl, height_eq hr, if_pos (by omega)] at e
        cases l with
        | nil => simp only [depth] at *; omega
        | node i2 p2 v2 h2' l2 r2 =>
          obtain ⟨c1, c2, bl2, br2⟩ := bl
          obtain ⟨_, hl2, hr2⟩ := hl
          simp only [depthAt] at e ⊢
          rw [height_eq hl2, height_eq hr2] at e
          by_cases h3 : depth l2 = depth r2 + 1
          · rw [if_pos h3] at e
            rw [if_neg (by simp only [if_true, Bool.false_eq_true, if_false]; omega),
              if_neg (by simp only [if_true, Bool.false_eq_true, if_false]; omega), e]
            simp only [rotateRight, Meets, BalancedBy, depth] at *
            exact ⟨⟨by omega, by omega, bl2, by omega, by omega, br2, m1⟩, by omega⟩
          · rw [if_neg h3] at e
            cases r2 with
            | nil => simp only [depth] at *; omega
            | node i3 p3 v3 h3' l3 r3 =>
              obtain ⟨c3, c4, bl3, br3⟩ := br2
              simp only [if_true, Bool.false_eq_true, if_false]
              rw [e]
              by_cases h4 : depth l2 = max (depth l3) (depth r3) + 1
              · by_cases h5 : depth l3 + 2 = max (depth l3) (depth r3) + 1
                · rw [if_pos (by simp only [depthAt, depth, Bool.false_eq_true, if_false]; omega)]
                  simp only [doubleRotateRight, rotateLeft, rotateRight, Meets, BalancedBy, depth] at *
                  refine ⟨fun hb => ?_, by omega⟩
                  have := hb.2.2.1.1
                  omega
                · rw [if_neg (by simp only [depthAt, depth, Bool.false_eq_true, if_false]; omega), if_pos (by simp only [depth]; omega)]
                  simp only [doubleRotateRight, rotateLeft, rotateRight, Meets, BalancedBy, depth] at *
                  exact ⟨⟨by omega, by omega, ⟨by omega, by omega, bl2, bl3⟩, by omega, by omega, br3, m1⟩, by omega⟩
              · rw [if_neg (by simp only [depthAt, depth]; omega), if_neg (by simp only [depth]; omega)]
                simp only [doubleRotateRight, rotateLeft, rotateRight, Meets, BalancedBy, depth] at *
                exact ⟨⟨by omega, by omega, ⟨by omega, by omega, bl2, bl3⟩, by omega, by omega, br3, m1⟩, by omega⟩

theorem meets_remove (n) (t : Tree α) : ∀ x, HeightsExact t → BalancedBy 1 t → Meets (fate t x) (depth t) (t.remove n x).1 := by
  induction t with
  | nil => intro x _ _; exact ⟨trivial, rfl⟩
  | node i p v h l r ihl ihr =>
    intro x hh hb
    have hexl := fun x => exact_remove n l x hh.2.1
    have hexr := fun x => exact_remove n r x hh.2.2
    obtain ⟨h1, hl, hr⟩ := hh
    obtain ⟨c1, c2, bl, br⟩ := hb
    unfold Tree.remove fate
    by_cases hx : x < v
    · rw [if_pos hx, if_pos hx]
      exact meets_left (h := h) (hexl x) hr (ihl x hl bl) br c1 c2
    · rw [if_neg hx, if_neg hx]
      by_cases hv : v < x
      · rw [if_pos hv]
        simp only [if_pos hv]
        exact meets_right (h := h) hl (hexr x) (ihr x hr br) bl c2 c1
      · rw [if_neg hv]
        simp only [if_neg hv]
        cases l with
        | nil =>
          cases r with
          | nil => exact ⟨trivial, rfl⟩
          | node ri rp rv rh rl rr =>
            simp only [setParent]
            rw [rotateOnRemove_same hr.2.1 hr.2.2 br.1 br.2.1]
            exact ⟨br, by simp only [depth]; omega⟩
        | node li lp lv lh ll lr =>
          cases r with
          | nil =>
            simp only [setParent, least]
            rw [rotateOnRemove_same hl.2.1 hl.2.2 bl.1 bl.2.1]
            exact ⟨bl, by simp only [depth]; omega⟩
          | node ri rp rv rh rl rr =>
            simp only
            rw [least_eq]
            cases hm : least (.node ri rp rv rh rl rr) with
            | none =>
              exfalso
              clear ihl ihr hexl hexr h1 hl hr c1 c2 bl br
              induction rl generalizing ri rp rv rh rr with
              | nil => cases hm
              | node i2 p2 v2 h2 l2 r2 ih _ => exact ih i2 p2 v2 h2 r2 hm
            | some m => exact meets_right (h := h) hl (hexr m) (ihr m hr br) bl c2 c1

/-- **C35, exactly:** a removal from a balanced tree, reached by any history, destroys the balance if and only if on the way back up some
subtree becomes two levels less deep than its sibling, the two subtrees of the sibling are equally deep, and the far subtree of the inner one
is two levels less deep than these. The height after the removal is as given. -/
theorem C35_exact (ops : List (Op α)) (a : Avl α) (os) (hr : run (Avl.new : Avl α) ops = .ok (a, os)) (hb : BalancedBy 1 a.root) (x : α) :
    (BalancedBy 1 (a.remove x).1.root ↔ fate a.root x ≠ .broken) ∧
      (a.remove x).1.height = if fate a.root x = .less then a.height - 1 else a.height := by
  have hex : HeightsExact a.root := run_exact (a := (Avl.new : Avl α)) trivial hr
  have hex' : HeightsExact (a.remove x).1.root := exact_remove a.size a.root x hex
  have key : Meets (fate a.root x) (depth a.root) (a.remove x).1.root := meets_remove a.size a.root x hex hb
  rw [Avl.height, Avl.height, height_eq hex, height_eq hex']
  cases hf : fate a.root x <;> rw [hf] at key <;> obtain ⟨k1, k2⟩ := key
  · exact ⟨⟨(fun _ e => by cases e), fun _ => k1⟩, by simpa using k2⟩
  · exact ⟨⟨(fun _ e => by cases e), fun _ => k1⟩, by simp; omega⟩
  · exact ⟨⟨fun h => absurd h k1, fun h => absurd rfl h⟩, by simpa using k2⟩

/-- The tree of `C35_counterexample`: removing 13 breaks it, removing 1 or 7 before does not. -/
example : fate (build false [10, 4, 12, 2, 6, 13, 1, 7]).root 13 = .broken ∧ fate (build false [10, 4, 12, 2, 6, 13, 1]).root 13 = .less ∧
    fate (build false [10, 4, 12, 2, 6, 13, 1, 5]).root 13 = .same ∧ fate (build false [10, 4, 12, 2, 6, 13, 1, 7]).root 1 = .same ∧
    fate (build false [10, 4, 12, 2, 6, 13, 1, 7]).root 10 = .broken := by decide +kernel

/-! ### C36 exactly -/

namespace Spec

/-- What one insertion of `x`, with duplicates enabled, does to a balanced subtree: whether its depth grows by one, or `none` if its
balance is lost. That happens at a node whose right child has the value `x`, a left subtree, and grew while it was the deeper child: the value
went to the right of its equal, but the code rotates as if it had gone to the left. -/
def insFate (x : α) : Tree α → Option Bool
  | .nil => some true
  | .node _ _ v _ l r =>
    if x < v then (insFate x l).map fun g => g && decide (depth l = depth r)
    else
      match insFate x r with
      | none => none
      | some false => some false
      | some true =>
        if depth r = depth l + 1 then
          match r with
          | .node _ _ w _ (.node ..) _ => if w = x then none else some false
          | _ => some false
        else some (decide (depth l = depth r))

end Spec

/-- The side to which `t` grew into `t'`. -/
def Grew (x : α) (t t' : Tree α) : Prop :=
  ∃ i p v h l r h', t = .node i p v h l r ∧
    ((x < v ∧ ∃ l', t' = .node i p v h' l' r ∧ depth l' = depth r + 1) ∨
      (v ≤ x ∧ ∃ r', t' = .node i p v h' l r' ∧ depth r' = depth l + 1))

/-- Some subtree two levels below the root is out of balance. -/
def Deep : Tree α → Prop
  | .nil => False
  | .node _ _ _ _ l r =>
    (match l with | .nil => False | .node _ _ _ _ a b => ¬ BalancedBy 1 a ∨ ¬ BalancedBy 1 b) ∨
    (match r with | .nil => False | .node _ _ _ _ a b => ¬ BalancedBy 1 a ∨ ¬ BalancedBy 1 b)

/-- The result of the wrong rotation. -/
def Fresh (t : Tree α) : Prop :=
  ∃ i p w h l i2 p2 v2 h2 b c, t = .node i p w h l (.node i2 p2 v2 h2 b c) ∧ depth l = depth c ∧ depth b + 2 ≤ depth c

/-- Out of balance, and no rotation further up can repair it. -/
def Ruined (d : Nat) (t : Tree α) : Prop :=
  (¬ BalancedBy 1 t ∧ depth t = d) ∨ (depth t = d + 1 ∧ (Deep t ∨ Fresh t))

theorem deep_bal {t : Tree α} (h : Deep t) : ¬ BalancedBy 1 t := by
  cases t with
  | nil => exact h.elim
  | node i p v hh l r =>
    rintro ⟨_, _, hl, hr⟩
    rcases h with h | h
    · cases l with
      | nil => exact h
      | node => rcases h with h | h; exacts [h hl.2.2.1, h hl.2.2.2]
    · cases r with
      | nil => exact h
      | node => rcases h with h | h; exacts [h hr.2.2.1, h hr.2.2.2]

theorem fresh_bal {t : Tree α} (h : Fresh t) : ¬ BalancedBy 1 t := by
  obtain ⟨i, p, w, hh, l, i2, p2, v2, h2, b, c, rfl, h4, h5⟩ := h
  rintro ⟨_, _, _, hr⟩
  have := hr.2.1
  omega

theorem ruined_bal {d : Nat} {t : Tree α} (h : Ruined d t) : ¬ BalancedBy 1 t := by
  rcases h with h | ⟨_, h | h⟩
  exacts [h.1, deep_bal h, fresh_bal h]

theorem not_bal_of_child {i p v h} {l r : Tree α} (hh : Deep (.node i p v h l r) ∨ ¬ BalancedBy 1 l ∨ ¬ BalancedBy 1 r) :
    ¬ BalancedBy 1 (.node i p v h l r) := by
  rcases hh with hh | hh
  · exact deep_bal hh
  · exact not_bal_node hh

/-- Below a deep or freshly broken tree something is out of balance. -/
theorem deep_children {t : Tree α} (h : Deep t ∨ Fresh t) :
    ∃ i p v hh l r, t = .node i p v hh l r ∧ (¬ BalancedBy 1 l ∨ ¬ BalancedBy 1 r) := by
  rcases h with h | h
  · cases t with
    | nil => exact h.elim
    | node i p v hh l r =>
      refine ⟨i, p, v, hh, l, r, rfl, ?_⟩
      rcases h with h | h
      · left
        cases l with
        | nil => exact h.elim
        | node => exact not_bal_node h
      · right
        cases r with
        | nil => exact h.elim
        | node => exact not_bal_node h
  · obtain ⟨i, p, w, hh, l, i2, p2, v2, h2, b, c, rfl, h4, h5⟩ := h
    refine ⟨i, p, w, hh, l, _, rfl, .inr ?_⟩
    rintro ⟨_, h6, _, _⟩
    omega

/-- A ruined left subtree ruins the node. -/
theorem ruined_left {i p v h} {l r : Tree α} {x : α} {d : Nat} (hl : HeightsExact l) (hr : HeightsExact r) (hm : Ruined d l)
    (b1 : d ≤ depth r + 1) (b2 : depth r ≤ d + 1) : Ruined (max d (depth r) + 1) (rotateIfNeeded x (.node i p v h l r)) := by
  have hnb := ruined_bal hm
  obtain ⟨t', e⟩ : ∃ t', t' = rotateIfNeeded x (.node i p v h l r) := ⟨_, rfl⟩
  rw [← e]
  simp only [rotateIfNeeded] at e
  rw [height_eq hl, height_eq hr] at e
  rcases hm with ⟨_, hd⟩ | ⟨hd, hm⟩
  · rw [if_neg (by omega), if_neg (by omega)] at e
    rw [e]
    exact .inl ⟨not_bal_node (.inl hnb), by simp only [depth]; omega⟩
  · by_cases hrot : depth l = depth r + 2
    · rw [if_pos hrot] at e
      cases l with
      | nil => simp only [depth] at hrot; omega
      | node i2 p2 v2 h2 l2 r2 =>
        simp only at e
        by_cases hx : x < v2
        · rw [if_pos hx] at e
          rcases hm with hm | hm
          · have hdp : Deep t' := by
              rw [e]
              rcases hm with hm | hm
              · exact .inl hm
              · right
                cases r2 with
                | nil => exact hm.elim
                | node => exact .inl (not_bal_node hm)
            have hdt : depth t' = max d (depth r) + 1 ∨ depth t' = max d (depth r) + 1 + 1 := by
              rw [e]; simp only [rotateRight, depth] at *; omega
            rcases hdt with hdt | hdt
            exacts [.inl ⟨deep_bal hdp, hdt⟩, .inr ⟨hdt, .inl hdp⟩]
          · obtain ⟨_, _, w, _, _, _, _, _, _, _, _, hw, k1, k2⟩ := hm
            injection hw with _ _ _ _ hw1 hw2
            subst hw1; subst hw2
            right
            rw [e]
            refine ⟨by simp only [rotateRight, depth] at *; omega, .inl (.inr (.inl ?_))⟩
            rintro ⟨_, h6, _, _⟩
            omega
        · rw [if_neg hx] at e
          cases r2 with
          | nil =>
            rcases hm with hm | hm
            · have hdp : Deep t' := by
                rw [e]
                rcases hm with hm | hm
                · exact .inl hm
                · exact hm.elim
              have hdt : depth t' = max d (depth r) + 1 ∨ depth t' = max d (depth r) + 1 + 1 := by
                rw [e]; simp only [doubleRotateRight, rotateLeft, rotateRight, depth] at *; omega
              rcases hdt with hdt | hdt
              exacts [.inl ⟨deep_bal hdp, hdt⟩, .inr ⟨hdt, .inl hdp⟩]
            · obtain ⟨_, _, w, _, _, _, _, _, _, _, _, hw, k1, k2⟩ := hm
              injection hw with _ _ _ _ _ hw
              cases hw
          | node i3 p3 v3 h3 l3 r3 =>
            rcases hm with hm | hm
            · have hdp : Deep t' := by
                rw [e]
                rcases hm with hm | hm
                · cases l2 with
                  | nil => exact hm.elim
                  | node => exact .inl (.inl (not_bal_node hm))
                · rcases hm with hm | hm
                  · exact .inl (.inr hm)
                  · exact .inr (.inl hm)
              have hdt : depth t' = max d (depth r) + 1 ∨ depth t' = max d (depth r) + 1 + 1 := by
                rw [e]; simp only [doubleRotateRight, rotateLeft, rotateRight, depth] at *; omega
              rcases hdt with hdt | hdt
              exacts [.inl ⟨deep_bal hdp, hdt⟩, .inr ⟨hdt, .inl hdp⟩]
            · obtain ⟨_, _, w, _, _, _, _, _, _, _, _, hw, k1, k2⟩ := hm
              injection hw with _ _ _ _ hw1 hw2
              injection hw2 with _ _ _ _ hw2 hw3
              subst hw1; subst hw2; subst hw3
              left
              rw [e]
              simp only [doubleRotateRight, rotateLeft, rotateRight, depth, BalancedBy] at *
              refine ⟨fun hb => ?_, by omega⟩
              have := hb.2.2.1.1
              omega
    · rw [if_neg hrot, if_neg (by omega)] at e
      rw [e]
      by_cases hg : d + 1 = depth r
      · exact .inl ⟨not_bal_node (.inl hnb), by simp only [depth]; omega⟩
      · right
        refine ⟨by simp only [depth]; omega, .inl (.inl ?_)⟩
        obtain ⟨_, _, _, _, _, _, rfl, hc⟩ := deep_children hm
        exact hc

/-- A ruined right subtree does. -/
theorem ruined_right {i p v h} {l r : Tree α} {x : α} {d : Nat} (hl : HeightsExact l) (hr : HeightsExact r) (hm : Ruined d r)
    (b1 : d ≤ depth l + 1) (b2 : depth l ≤ d + 1) : Ruined (max (depth l) d + 1) (rotateIfNeeded x (.node i p v h l r)) := by
  have hnb := ruined_bal hm
  obtain ⟨t', e⟩ : ∃ t', t' = rotateIfNeeded x (.node i p v h l r) := ⟨_, rfl⟩
  rw [← e]
  simp only [rotateIfNeeded] at e
  rw [height_eq hl, height_eq hr] at e
  rcases hm with ⟨_, hd⟩ | ⟨hd, hm⟩
  · rw [if_neg (by omega), if_neg (by omega)] at e
    rw [e]
    exact .inl ⟨not_bal_node (.inr hnb), by simp only [depth]; omega⟩
  · by_cases hrot : depth r = depth l + 2
    · rw [if_neg (by omega), if_pos hrot] at e
      cases r with
      | nil => simp only [depth] at hrot; omega
      | node i2 p2 v2 h2 l2 r2 =>
        simp only at e
        by_cases hx : v2 < x
        · rw [if_pos hx] at e
          rcases hm with hm | hm
          · have hdp : Deep t' := by
              rw [e]
              rcases hm with hm | hm
              · left
                cases l2 with
                | nil => exact hm.elim
                | node => exact .inr (not_bal_node hm)
              · exact .inr hm
            have hdt : depth t' = max (depth l) d + 1 ∨ depth t' = max (depth l) d + 1 + 1 := by
              rw [e]; simp only [rotateLeft, depth] at *; omega
            rcases hdt with hdt | hdt
            exacts [.inl ⟨deep_bal hdp, hdt⟩, .inr ⟨hdt, .inl hdp⟩]
          · obtain ⟨_, _, w, _, _, _, _, _, _, _, _, hw, k1, k2⟩ := hm
            injection hw with _ _ _ _ hw1 hw2
            subst hw1; subst hw2
            left
            rw [e]
            simp only [rotateLeft, depth, BalancedBy] at *
            refine ⟨fun hb => ?_, by omega⟩
            have := hb.2.2.2.2.1
            omega
        · rw [if_neg hx] at e
          cases l2 with
          | nil =>
            rcases hm with hm | hm
            · have hdp : Deep t' := by
                rw [e]
                rcases hm with hm | hm
                · exact hm.elim
                · exact .inr hm
              have hdt : depth t' = max (depth l) d + 1 ∨ depth t' = max (depth l) d + 1 + 1 := by
                rw [e]; simp only [doubleRotateLeft, rotateLeft, rotateRight, depth] at *; omega
              rcases hdt with hdt | hdt
              exacts [.inl ⟨deep_bal hdp, hdt⟩, .inr ⟨hdt, .inl hdp⟩]
            · obtain ⟨_, _, w, _, _, _, _, _, _, _, _, hw, k1, k2⟩ := hm
              injection hw with _ _ _ _ hw1 hw2
              subst hw1
              simp only [depth] at k1
              omega
          | node i3 p3 v3 h3 l3 r3 =>
            have hdp : Deep t' := by
              rw [e]
              rcases hm with hm | hm
              · rcases hm with hm | hm
                · rcases hm with hm | hm
                  · exact .inl (.inr hm)
                  · exact .inr (.inl hm)
                · cases r2 with
                  | nil => exact hm.elim
                  | node => exact .inr (.inr (not_bal_node hm))
              · obtain ⟨_, _, w, _, _, _, _, _, _, _, _, hw, k1, k2⟩ := hm
                injection hw with _ _ _ _ hw1 hw2
                subst hw2
                refine .inr (.inr ?_)
                rintro ⟨_, h6, _, _⟩
                omega
            have hdt : depth t' = max (depth l) d + 1 ∨ depth t' = max (depth l) d + 1 + 1 := by
              rw [e]; simp only [doubleRotateLeft, rotateLeft, rotateRight, depth] at *; omega
            rcases hdt with hdt | hdt
            exacts [.inl ⟨deep_bal hdp, hdt⟩, .inr ⟨hdt, .inl hdp⟩]
    · rw [if_neg (by omega), if_neg hrot] at e
      rw [e]
      by_cases hg : d + 1 = depth l
      · exact .inl ⟨not_bal_node (.inr hnb), by simp only [depth]; omega⟩
      · right
        refine ⟨by simp only [depth]; omega, .inl (.inr ?_)⟩
        obtain ⟨_, _, _, _, _, _, rfl, hc⟩ := deep_children hm
        exact hc

/-- What a fate says about the tree `t'` that `t` became. -/
def MeetsIns (x : α) (f : Option Bool) (t t' : Tree α) : Prop :=
  match f with
  | some false => BalancedBy 1 t' ∧ depth t' = depth t
  | some true => BalancedBy 1 t' ∧ depth t' = depth t + 1 ∧ (t ≠ .nil → Grew x t t')
  | none => Ruined (depth t) t'

theorem inserted_dups (fresh) (x : α) (n) (t : Tree α) : ∀ par, (t.insert true fresh x n par).2.1 = true := by
  induction t with
  | nil => intro par; rfl
  | node i p v h l r ihl ihr =>
    intro par
    simp only [Tree.insert]
    split
    · exact ihl _
    · split
      · exact ihr _
      · simp only [if_true]; exact ihr _

theorem meets_insert (fresh) (x : α) (n) (t : Tree α) : ∀ par, HeightsExact t → BalancedBy 1 t →
    MeetsIns x (insFate x t) t (t.insert true fresh x n par).1 := by
  induction t with
  | nil => intro par _ _; exact ⟨⟨by simp [depth], by simp [depth], trivial, trivial⟩, rfl, fun h => absurd rfl h⟩
  | node i p v h l r ihl ihr =>
    intro par hh hb
    have hexl := (exact_insert true fresh x n l (some i) hh.2.1).1
    have hexr := (exact_insert true fresh x n r (some i) hh.2.2).1
    have hil := inserted_dups fresh x n l (some i)
    have hir := inserted_dups fresh x n r (some i)
    obtain ⟨h1, hl, hr⟩ := hh
    obtain ⟨c1, c2, bl, br⟩ := hb
    have e0 : (Tree.insert true fresh x n par (.node i p v h l r)).1 =
        if x < v then rotateIfNeeded x (.node i p v h (l.insert true fresh x n (some i)).1 r)
        else rotateIfNeeded x (.node i p v h l (r.insert true fresh x n (some i)).1) := by
      simp only [Tree.insert, hil, hir, if_true]
      by_cases h3 : x < v
      · simp only [h3, if_true]
      · by_cases h4 : v < x <;> simp only [h3, h4, if_true, if_false]
    rw [e0]
    clear e0
    have kl := ihl (some i) hl bl
    have kr := ihr (some i) hr br
    generalize (l.insert true fresh x n (some i)).1 = l' at *
    generalize (r.insert true fresh x n (some i)).1 = r' at *
    unfold insFate
    by_cases hx : x < v
    · rw [if_pos hx, if_pos hx]
      cases hf : insFate x l with
      | none => rw [hf] at kl; exact ruined_left hexl hr kl c1 c2
      | some g =>
        rw [hf] at kl
        obtain ⟨t', e⟩ : ∃ t', t' = rotateIfNeeded x (.node i p v h l' r) := ⟨_, rfl⟩
        rw [← e]
        simp only [rotateIfNeeded] at e
        rw [height_eq hexl, height_eq hr] at e
        cases g with
        | false =>
          obtain ⟨k1, k2⟩ := kl
          rw [if_neg (by omega), if_neg (by omega)] at e
          rw [e]
          exact ⟨⟨by omega, by omega, k1, br⟩, by simp only [depth]; omega⟩
        | true =>
          obtain ⟨k1, k2, k3⟩ := kl
          simp only [Option.map_some, Bool.true_and]
          by_cases hrot : depth l = depth r + 1
          · rw [if_pos (by omega)] at e
            rw [decide_eq_false (by omega)]
            obtain ⟨i2, p2, v2, h2, l2, r2, h2', rfl, hg⟩ := k3 (by rintro rfl; simp only [depth] at hrot; omega)
            obtain ⟨d1, d2, bl2, br2⟩ := bl
            rcases hg with ⟨hg, l2', rfl, hg2⟩ | ⟨hg, r2', rfl, hg2⟩
            · dsimp only at e
              rw [if_pos hg] at e
              rw [e]
              obtain ⟨_, _, bl2', _⟩ := k1
              simp only [MeetsIns, rotateRight, BalancedBy, depth] at *
              exact ⟨⟨by omega, by omega, bl2', by omega, by omega, br2, br⟩, by omega⟩
            · dsimp only at e
              rw [if_neg (not_lt.2 hg)] at e
              rw [e]
              obtain ⟨_, _, _, br2'⟩ := k1
              cases r2' with
              | nil => simp only [depth] at hg2; omega
              | node i3 p3 v3 h3 l3 r3 =>
                obtain ⟨_, _, _, _⟩ := br2'
                simp only [MeetsIns, doubleRotateRight, rotateLeft, rotateRight, BalancedBy, depth] at *
                refine ⟨⟨by omega, by omega, ⟨by omega, by omega, bl2, by assumption⟩, by omega, by omega, by assumption, br⟩, by omega⟩
          · rw [if_neg (by omega), if_neg (by omega)] at e
            by_cases heq : depth l = depth r
            · rw [decide_eq_true heq, e]
              exact ⟨⟨by omega, by omega, k1, br⟩, by simp only [depth]; omega,
                fun _ => ⟨i, p, v, h, l, r, _, rfl, .inl ⟨hx, l', rfl, by omega⟩⟩⟩
            · rw [decide_eq_false heq, e]
              exact ⟨⟨by omega, by omega, k1, br⟩, by simp only [depth]; omega⟩
    · rw [if_neg hx, if_neg hx]
      cases hf : insFate x r with
      | none => rw [hf] at kr; exact ruined_right hl hexr kr c2 c1
      | some g =>
        rw [hf] at kr
        obtain ⟨t', e⟩ : ∃ t', t' = rotateIfNeeded x (.node i p v h l r') := ⟨_, rfl⟩
        rw [← e]
        simp only [rotateIfNeeded] at e
        rw [height_eq hl, height_eq hexr] at e
        cases g with
        | false =>
          obtain ⟨k1, k2⟩ := kr
          rw [if_neg (by omega), if_neg (by omega)] at e
          rw [e]
          exact ⟨⟨by omega, by omega, bl, k1⟩, by simp only [depth]; omega⟩
        | true =>
          obtain ⟨k1, k2, k3⟩ := kr
          simp only
          by_cases hrot : depth r = depth l + 1
          · rw [if_neg (by omega), if_pos (by omega)] at e
            rw [if_pos hrot]
            obtain ⟨i2, p2, v2, h2, l2, r2, h2', rfl, hg⟩ := k3 (by rintro rfl; simp only [depth] at hrot; omega)
            obtain ⟨d1, d2, bl2, br2⟩ := br
            rcases hg with ⟨hg, l2', rfl, hg2⟩ | ⟨hg, r2', rfl, hg2⟩
            · dsimp only at e
              rw [if_neg (not_lt.2 (le_of_lt hg))] at e
              obtain ⟨_, _, bl2', _⟩ := k1
              have hres : MeetsIns x (some false) (.node i p v h l (.node i2 p2 v2 h2 l2 r2)) t' := by
                rw [e]
                cases l2' with
                | nil => simp only [depth] at hg2; omega
                | node i3 p3 v3 h3 l3 r3 =>
                  obtain ⟨_, _, _, _⟩ := bl2'
                  simp only [MeetsIns, doubleRotateLeft, rotateLeft, rotateRight, BalancedBy, depth] at *
                  refine ⟨⟨by omega, by omega, ⟨by omega, by omega, bl, by assumption⟩, by omega, by omega, by assumption, br2⟩, by omega⟩
              cases l2 with
              | nil => exact hres
              | node => simp only [if_neg (ne_of_gt hg)]; exact hres
            · by_cases hlt : v2 < x
              · dsimp only at e
                rw [if_pos hlt] at e
                obtain ⟨_, _, _, br2'⟩ := k1
                have hres : MeetsIns x (some false) (.node i p v h l (.node i2 p2 v2 h2 l2 r2)) t' := by
                  rw [e]
                  simp only [MeetsIns, rotateLeft, BalancedBy, depth] at *
                  exact ⟨⟨by omega, by omega, ⟨by omega, by omega, bl, bl2⟩, br2'⟩, by omega⟩
                cases l2 with
                | nil => exact hres
                | node => simp only [if_neg (ne_of_lt hlt)]; exact hres
              · dsimp only at e
                rw [if_neg hlt] at e
                have hveq : v2 = x := le_antisymm hg (not_lt.1 hlt)
                obtain ⟨_, _, _, br2'⟩ := k1
                cases l2 with
                | nil =>
                  simp only
                  rw [e]
                  simp only [MeetsIns, doubleRotateLeft, rotateRight, rotateLeft, BalancedBy, depth] at *
                  exact ⟨⟨by omega, by omega, ⟨by omega, by omega, bl, trivial⟩, br2'⟩, by omega⟩
                | node i3 p3 v3 h3 l3 r3 =>
                  simp only [if_pos hveq]
                  right
                  refine ⟨?_, .inr ?_⟩
                  · rw [e]; simp only [doubleRotateLeft, rotateRight, rotateLeft, depth] at *; omega
                  · rw [e]
                    refine ⟨_, _, _, _, _, _, _, _, _, _, _, rfl, ?_, ?_⟩
                    · simp only [depth] at *; omega
                    · simp only [depth] at *; omega
          · rw [if_neg (by omega), if_neg (by omega)] at e
            rw [if_neg hrot]
            by_cases heq : depth l = depth r
            · rw [decide_eq_true heq, e]
              exact ⟨⟨by omega, by omega, bl, k1⟩, by simp only [depth]; omega,
                fun _ => ⟨i, p, v, h, l, r, _, rfl, .inr ⟨not_lt.1 hx, r', rfl, by omega⟩⟩⟩
            · rw [decide_eq_false heq, e]
              exact ⟨⟨by omega, by omega, bl, k1⟩, by simp only [depth]; omega⟩

/-- **C36, exactly:** with duplicates enabled, an insertion into a balanced tree, reached by any history, destroys the balance if and only if
on the way back up some right child has the inserted value, has a left subtree, and grew though it was the deeper child already. -/
theorem C36_exact (ops : List (Op α)) (a : Avl α) (os) (hr : run (Avl.new : Avl α) ops = .ok (a, os)) (hd : a.dups = true)
    (hb : BalancedBy 1 a.root) (x : α) :
    (BalancedBy 1 (a.insert x).1.root ↔ insFate x a.root ≠ none) ∧
      ∀ g, insFate x a.root = some g → (a.insert x).1.height = a.height + if g then 1 else 0 := by
  have hex : HeightsExact a.root := run_exact (a := (Avl.new : Avl α)) trivial hr
  have e : (a.insert x).1.root = (a.root.insert true a.next x a.size none).1 := by simp only [Avl.insert, hd]
  have hex' : HeightsExact (a.insert x).1.root := by rw [e]; exact (exact_insert true a.next x a.size a.root none hex).1
  have key : MeetsIns x (insFate x a.root) a.root (a.insert x).1.root := by rw [e]; exact meets_insert a.next x a.size a.root none hex hb
  rw [Avl.height, Avl.height, height_eq hex, height_eq hex']
  cases hf : insFate x a.root with
  | none => rw [hf] at key; exact ⟨⟨fun h => absurd h (ruined_bal key), fun h => absurd rfl h⟩, fun g hg => by cases hg⟩
  | some g =>
    rw [hf] at key
    cases g with
    | false => exact ⟨⟨(fun _ e => by cases e), fun _ => key.1⟩, fun g hg => by injection hg with hg; subst hg; simpa using key.2⟩
    | true => exact ⟨⟨(fun _ e => by cases e), fun _ => key.1⟩, fun g hg => by injection hg with hg; subst hg; simpa using key.2.1⟩

/-- Five equal values are balanced, the sixth breaks the tree; a greater or a smaller value would not. -/
example : BalancedBy 1 (build true [3, 3, 3, 3, 3]).root ∧ insFate 3 (build true [3, 3, 3, 3, 3]).root = none ∧
    insFate 4 (build true [3, 3, 3, 3, 3]).root = some false ∧ insFate 2 (build true [3, 3, 3, 3, 3]).root = some false := by
  decide +kernel

end Verif.Avl
