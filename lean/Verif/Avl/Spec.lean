import Verif.Avl.Model

/-!
Specification: a multiset given by multiplicities; shapes, real heights and balance of trees.
(Only the tree type and the call/result types are shared with the model.)
-/

namespace Verif.Avl.Spec
variable {α : Type}

/-- Values from left to right. -/
def inorder : Tree α → List α
  | .nil => []
  | .node _ _ v _ l r => inorder l ++ v :: inorder r

/-- Nodes on the longest root-to-leaf path. -/
def depth : Tree α → Nat
  | .nil => 0
  | .node _ _ _ _ l r => max (depth l) (depth r) + 1

/-- Number of nodes. -/
def count : Tree α → Nat
  | .nil => 0
  | .node _ _ _ _ l r => count l + count r + 1

/-- Depths of the two subtrees differ by at most `k` at every node. -/
def BalancedBy (k : Nat) : Tree α → Prop
  | .nil => True
  | .node _ _ _ _ l r => depth l ≤ depth r + k ∧ depth r ≤ depth l + k ∧ BalancedBy k l ∧ BalancedBy k r

/-- Every stored height is the real depth. -/
def HeightsExact : Tree α → Prop
  | .nil => True
  | .node _ _ _ h l r => h = max (depth l) (depth r) + 1 ∧ HeightsExact l ∧ HeightsExact r

/-- Every stored parent is the real parent; `p` is the parent of the root. -/
def ParentsExact (p : Option Nat) : Tree α → Prop
  | .nil => True
  | .node i q _ _ l r => q = p ∧ ParentsExact (some i) l ∧ ParentsExact (some i) r

/-- Same shape and values (identities, parents and stored heights ignored). -/
inductive SameShape : Tree α → Tree α → Prop
  | nil : SameShape .nil .nil
  | node {i p v h l r i' p' h' l' r'} : SameShape l l' → SameShape r r' →
      SameShape (.node i p v h l r) (.node i' p' v h' l' r')

/-- Abstract state: how often each value is contained, and whether duplicates are allowed. -/
structure MSet (α : Type) where
  mult : α → Nat
  dups : Bool

def MSet.empty : MSet α := ⟨fun _ => 0, false⟩

instance decBalancedBy (k : Nat) : (t : Tree α) → Decidable (BalancedBy k t)
  | .nil => .isTrue trivial
  | .node _ _ _ _ l r =>
    have := decBalancedBy k l
    have := decBalancedBy k r
    inferInstanceAs (Decidable (_ ∧ _ ∧ _ ∧ _))

instance decParentsExact : (p : Option Nat) → (t : Tree α) → Decidable (ParentsExact p t)
  | _, .nil => .isTrue trivial
  | _, .node i _ _ _ l r =>
    have := decParentsExact (some i) l
    have := decParentsExact (some i) r
    inferInstanceAs (Decidable (_ ∧ _ ∧ _))

variable [DecidableEq α]

/-- Effect of one call on the membership of `x`. -/
def presentStep (x : α) (b : Bool) : Op α → Bool
  | .insert y => if y = x then true else b
  | .remove y => if y = x then false else b
  | .removeAll y => if y = x then false else b
  | .clear => false
  | _ => b

/-- Membership of `x` after a history with duplicates disabled: decided by the last call that concerns `x`. -/
def present (ops : List (Op α)) (x : α) : Bool := ops.foldl (presentStep x) false

/-- Reference semantics. -/
def MSet.step (s : MSet α) : Op α → MSet α × Out
  | .insert x =>
    if s.dups ∨ s.mult x = 0 then ({ s with mult := fun y => if y = x then s.mult x + 1 else s.mult y }, .bool true)
    else (s, .bool false)
  | .remove x =>
    if s.mult x = 0 then (s, .bool false)
    else ({ s with mult := fun y => if y = x then s.mult x - 1 else s.mult y }, .bool true)
  | .removeAll x => ({ s with mult := fun y => if y = x then 0 else s.mult y }, .count (s.mult x))
  | .clear => ({ s with mult := fun _ => 0 }, .unit)
  | .enableDuplicates => ({ s with dups := true }, .unit)
  | .disableDuplicates => ({ s with dups := false }, .unit)

def MSet.run (s : MSet α) : List (Op α) → MSet α × List Out
  | [] => (s, [])
  | op :: ops => ((s.step op).1.run ops |>.1, (s.step op).2 :: ((s.step op).1.run ops).2)

end Verif.Avl.Spec
