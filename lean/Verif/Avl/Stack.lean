import Verif.Avl.Cost
import Verif.Nary.Model

/-!
C207: the stack the recursive functions of `structures/binary_tree.h` need.

Every function below has as first argument the number of nested calls of it that the stack has room for; a call without room is undefined behaviour
(`Res.ub`, stack overflow).

Simplifications:
* only calls of the recursive functions count; helpers that return before the next level is entered, and the fixed number of helpers between two levels
  (`insert_left` between two `insert`, `clear` and `delete_child` between two destructors), belong to the level they are called from.
* the compiler does not turn `leftmost` and `contains` into loops.
-/

namespace Verif.Avl
open Spec

namespace Tree
variable {α : Type}

/-- binary_tree.h:204-212, 261-274 `~binary_node_t`, `clear`, `delete_child`: the destructors of the children run inside the one of the node. -/
def destroyS : Nat → Tree α → Res Unit
  | _, nil => .ok ()
  | 0, node .. => .ub
  | k + 1, node _ _ _ _ l r => do
    destroyS k l
    destroyS k r

/-- binary_tree.h:155-171 `operator=(const binary_node_t&)` on a new node. -/
def copyS : Nat → Option Nat → Tree α → Nat → Res (Tree α × Nat)
  | _, _, nil, next => .ok (nil, next)
  | 0, _, node .., _ => .ub
  | k + 1, par, node _ _ v _ l r, next => do
    let i := next
    let (l', next) ← copyS k (some i) l (next + 1)
    let (r', next) ← copyS k (some i) r next
    .ok (node i par v 1 l' r', next)

/-- binary_tree.h:316-328 `in_order`. -/
def inOrderS (f : Nary.Callback (Nary.BNode α)) : Nat → Tree α → List (Nary.BNode α) → Res (List (Nary.BNode α) × Nat)
  | _, nil, tr => .ok (tr, 0)
  | 0, node .., _ => .ub
  | k + 1, node i _ v _ l r, tr => do
    let (tr, n1) ← inOrderS f k l tr
    let stop := f tr (i, v, l, r)
    let tr := tr ++ [(i, v, l, r)]
    let (tr, n2) ← if stop then .ok (tr, 0) else inOrderS f k r tr
    .ok (tr, 1 + n1 + n2)

/-- binary_tree.h:335-346 `pre_order`. -/
def preOrderS (f : Nary.Callback (Nary.BNode α)) : Nat → Tree α → List (Nary.BNode α) → Res (List (Nary.BNode α) × Nat)
  | _, nil, tr => .ok (tr, 0)
  | 0, node .., _ => .ub
  | k + 1, node i _ v _ l r, tr =>
    let stop := f tr (i, v, l, r)
    let tr := tr ++ [(i, v, l, r)]
    if stop then .ok (tr, 1)
    else do
      let (tr, n1) ← preOrderS f k l tr
      let (tr, n2) ← preOrderS f k r tr
      .ok (tr, 1 + n1 + n2)

/-- binary_tree.h:354-365 `pos_order`. -/
def posOrderS : Nat → Tree α → List (Nary.BNode α) → Res (List (Nary.BNode α) × Nat)
  | _, nil, tr => .ok (tr, 0)
  | 0, node .., _ => .ub
  | k + 1, node i _ v _ l r, tr => do
    let (tr, n1) ← posOrderS k l tr
    let (tr, n2) ← posOrderS k r tr
    .ok (tr ++ [(i, v, l, r)], 1 + n1 + n2)

/-- binary_tree.h:1007-1009 `leftmost`. -/
def leftmostS : Nat → Tree α → Res α
  | 0, _ => .ub
  | _ + 1, nil => .ub
  | k + 1, node _ _ v _ l _ =>
    match l with
    | nil => .ok v
    | l => leftmostS k l

variable [LinearOrder α]

/-- binary_tree.h:728-745 `contains`: not called on null children. -/
def containsS (x : α) : Nat → Tree α → Res Bool
  | _, nil => .ok false
  | 0, node .. => .ub
  | k + 1, node _ _ v _ l r =>
    if x < v then containsS x k l
    else if v < x then containsS x k r
    else .ok (decide (x = v))

/-- binary_tree.h:853-881 `insert`: called on the null root of an empty tree, but not on null children (l.754-779). -/
def insertS (dups : Bool) (fresh : Nat) (x : α) (n : Nat) : Nat → Option Nat → Tree α → Res (Tree α × Bool × Nat)
  | 0, _, _ => .ub
  | _ + 1, par, nil => .ok (node fresh par x 1 nil nil, true, (n + 1) % W)
  | k + 1, _, node i p v h l r =>
    if x < v then do
      let (l', inserted, n) ← match l with
        | nil => .ok (node fresh (some i) x 1 nil nil, true, (n + 1) % W)
        | l => insertS dups fresh x n k (some i) l
      let t := node i p v h l' r
      .ok (if inserted then rotateIfNeeded x t else t, inserted, n)
    else if v < x ∨ dups = true then do
      let (r', inserted, n) ← match r with
        | nil => .ok (node fresh (some i) x 1 nil nil, true, (n + 1) % W)
        | r => insertS dups fresh x n k (some i) r
      let t := node i p v h l r'
      .ok (if inserted then rotateIfNeeded x t else t, inserted, n)
    else .ok (node i p v h l r, false, n)

/-- binary_tree.h:891-925 `remove`: called on null children too; `delete temp` (l.916) destroys a node without children. -/
def removeS (n : Nat) : Nat → Tree α → α → Res (Tree α × Bool × Nat)
  | 0, _, _ => .ub
  | _ + 1, nil, _ => .ok (nil, false, n)
  | k + 1, node i p v h l r, x =>
    if x < v then do
      let (l', removed, n) ← removeS n k l x
      .ok (rotateOnRemove (node i p v h l' r), removed, n)
    else if v < x then do
      let (r', removed, n) ← removeS n k r x
      .ok (rotateOnRemove (node i p v h l r'), removed, n)
    else
      match l, r with
      | nil, r => do  -- `setParent` and `rotateOnRemove` leave a null pointer alone
        destroyS k (node i p v h nil nil)
        .ok (rotateOnRemove (setParent p r), true, (n + W - 1) % W)
      | node li lp lv lh ll lr, nil => do
        destroyS k (node i p v h nil nil)
        .ok (rotateOnRemove (setParent p (node li lp lv lh ll lr)), true, (n + W - 1) % W)
      | node li lp lv lh ll lr, node ri rp rv rh rl rr => do
        let m ← leftmostS k (node ri rp rv rh rl rr)
        let (r', removed, n) ← removeS n k (node ri rp rv rh rl rr) m
        .ok (rotateOnRemove (node i p m h (node li lp lv lh ll lr) r'), removed, n)

end Tree

namespace Avl
variable {α : Type}

/-- tree.h:1053-1059, binary_tree.h:610-613 `clear`, also what `~tree_t` runs. -/
def clearS (K : Nat) (a : Avl α) : Res (Avl α) := do
  a.root.destroyS K
  .ok a.clear

/-- The copy constructor (tree.h:898-900, 917-923). -/
def copyS (K : Nat) (src : Avl α) : Res (Avl α) :=
  match src.root with
  | .nil => .ok { (new : Avl α) with dups := src.dups, size := src.size }
  | t => do
    let (t', next) ← t.copyS K none (max 0 src.next)
    .ok ⟨t', src.dups, src.size, next⟩

variable [LinearOrder α]

/-- binary_tree.h:546-548 `contains`. -/
def containsS (K : Nat) (a : Avl α) (x : α) : Res Bool := a.root.containsS x K

/-- binary_tree.h:480-484 `insert`. -/
def insertS (K : Nat) (a : Avl α) (x : α) : Res (Avl α × Bool) := do
  let (t, inserted, n) ← a.root.insertS a.dups a.next x a.size K none
  .ok ({ a with root := t, size := n, next := a.next + 1 }, inserted)

/-- binary_tree.h:492-496 `remove`. -/
def removeS (K : Nat) (a : Avl α) (x : α) : Res (Avl α × Bool) := do
  let (t, removed, n) ← a.root.removeS a.size K x
  .ok ({ a with root := t, size := n }, removed)

/-- binary_tree.h:505-511 `remove_all`; `.ub` also if the loop needs more than `fuel` rounds. -/
def removeAllFuelS (K : Nat) : Nat → Avl α → α → Nat → Res (Avl α × Nat)
  | 0, _, _, _ => .ub
  | fuel + 1, a, x, cnt => do
    let (a, removed) ← a.removeS K x
    if removed then removeAllFuelS K fuel a x (cnt + 1) else .ok (a, cnt)

/-- binary_tree.h:505-511 `remove_all`. -/
def removeAllS (K : Nat) (a : Avl α) (x : α) : Res (Avl α × Nat) := removeAllFuelS K (nodes a.root + 1) a x 0

end Avl

/-! ### With room for the depth of the tree -/

section
variable {α : Type}

theorem depth_node_le {i p v h k} {l r : Tree α} : depth (.node i p v h l r) ≤ k + 1 ↔ depth l ≤ k ∧ depth r ≤ k := by
  simp only [depth]; omega

theorem depth_node_pos {i p v h} {l r : Tree α} : ¬ depth (.node i p v h l r) ≤ 0 := by
  simp only [depth]; omega

theorem destroyS_exact (t : Tree α) : ∀ K, t.destroyS K = if depth t ≤ K then .ok () else .ub := by
  induction t with
  | nil => intro K; rw [Tree.destroyS, if_pos (show depth (.nil : Tree α) ≤ K from Nat.zero_le K)]
  | node i p v h l r ihl ihr =>
    intro K
    cases K with
    | zero => rw [Tree.destroyS, if_neg depth_node_pos]
    | succ k =>
      rw [Tree.destroyS, ihl, ihr]
      by_cases h1 : depth l ≤ k
      · by_cases h2 : depth r ≤ k
        · rw [if_pos h1, if_pos h2, if_pos (depth_node_le.2 ⟨h1, h2⟩)]; rfl
        · rw [if_pos h1, if_neg h2, if_neg fun c => h2 (depth_node_le.1 c).2]; rfl
      · rw [if_neg h1, if_neg fun c => h1 (depth_node_le.1 c).1]; rfl

theorem copyS_exact (t : Tree α) : ∀ K par next, t.copyS K par next = if depth t ≤ K then .ok (t.copy par next) else .ub := by
  induction t with
  | nil => intro K par next; rw [Tree.copyS, if_pos (show depth (.nil : Tree α) ≤ K from Nat.zero_le K)]; rfl
  | node i p v h l r ihl ihr =>
    intro K par next
    cases K with
    | zero => rw [Tree.copyS, if_neg depth_node_pos]
    | succ k =>
      rw [Tree.copyS]
      simp only [ihl]
      by_cases h1 : depth l ≤ k
      · rw [if_pos h1, Res.bind_ok]
        simp only [ihr]
        by_cases h2 : depth r ≤ k
        · rw [if_pos h2, if_pos (depth_node_le.2 ⟨h1, h2⟩)]; rfl
        · rw [if_neg h2, if_neg fun c => h2 (depth_node_le.1 c).2]; rfl
      · rw [if_neg h1, if_neg fun c => h1 (depth_node_le.1 c).1]; rfl

theorem posOrderS_exact (t : Tree α) : ∀ K tr, t.posOrderS K tr = if depth t ≤ K then .ok (Nary.bPos t tr) else .ub := by
  induction t with
  | nil => intro K tr; rw [Tree.posOrderS, if_pos (show depth (.nil : Tree α) ≤ K from Nat.zero_le K)]; rfl
  | node i p v h l r ihl ihr =>
    intro K tr
    cases K with
    | zero => rw [Tree.posOrderS, if_neg depth_node_pos]
    | succ k =>
      rw [Tree.posOrderS]
      simp only [ihl]
      by_cases h1 : depth l ≤ k
      · rw [if_pos h1, Res.bind_ok]
        simp only [ihr]
        by_cases h2 : depth r ≤ k
        · rw [if_pos h2, if_pos (depth_node_le.2 ⟨h1, h2⟩)]; rfl
        · rw [if_neg h2, if_neg fun c => h2 (depth_node_le.1 c).2]; rfl
      · rw [if_neg h1, if_neg fun c => h1 (depth_node_le.1 c).1]; rfl

theorem inOrderS_enough (f : Nary.Callback (Nary.BNode α)) (t : Tree α) : ∀ K tr, depth t ≤ K → t.inOrderS f K tr = .ok (Nary.bIn f t tr) := by
  induction t with
  | nil => intro K tr _; rw [Tree.inOrderS]; rfl
  | node i p v h l r ihl ihr =>
    intro K tr hd
    cases K with
    | zero => exact absurd hd depth_node_pos
    | succ k =>
      obtain ⟨h1, h2⟩ := depth_node_le.1 hd
      rw [Tree.inOrderS, ihl k tr h1, Res.bind_ok]
      simp only [Nary.bIn]
      split
      · rfl
      · rw [ihr k _ h2]; rfl

theorem preOrderS_enough (f : Nary.Callback (Nary.BNode α)) (t : Tree α) : ∀ K tr, depth t ≤ K → t.preOrderS f K tr = .ok (Nary.bPre f t tr) := by
  induction t with
  | nil => intro K tr _; rw [Tree.preOrderS]; rfl
  | node i p v h l r ihl ihr =>
    intro K tr hd
    cases K with
    | zero => exact absurd hd depth_node_pos
    | succ k =>
      obtain ⟨h1, h2⟩ := depth_node_le.1 hd
      simp only [Tree.preOrderS, Nary.bPre]
      split
      · rfl
      · rw [ihl k _ h1, Res.bind_ok]
        simp only [ihr k _ h2, Res.bind_ok]

theorem leftmostS_enough (t : Tree α) : ∀ K m, depth t ≤ K → t.leftmost = some m → t.leftmostS K = .ok m := by
  induction t with
  | nil => intro K m _ h; cases h
  | node i p v h l r ihl _ =>
    intro K m hd hm
    cases K with
    | zero => exact absurd hd depth_node_pos
    | succ k =>
      obtain ⟨h1, -⟩ := depth_node_le.1 hd
      cases l with
      | nil =>
        simp only [Tree.leftmost, Option.some.injEq] at hm
        subst hm
        rfl
      | node => exact ihl k m h1 hm

theorem leftmost_isSome (t : Tree α) (h : t ≠ .nil) : ∃ m, t.leftmost = some m := by
  induction t with
  | nil => exact absurd rfl h
  | node i p v h l r ihl _ =>
    cases l with
    | nil => exact ⟨v, rfl⟩
    | node => exact ihl (by simp)

variable [LinearOrder α]

theorem containsS_enough (x : α) (t : Tree α) : ∀ K, depth t ≤ K → t.containsS x K = .ok (t.contains x) := by
  induction t with
  | nil => intro K _; rw [Tree.containsS]; rfl
  | node i p v h l r ihl ihr =>
    intro K hd
    cases K with
    | zero => exact absurd hd depth_node_pos
    | succ k =>
      obtain ⟨h1, h2⟩ := depth_node_le.1 hd
      simp only [Tree.containsS, Tree.contains, ihl k h1, ihr k h2]
      split
      · rfl
      · split <;> rfl

theorem insertS_enough (dups : Bool) (fresh : Nat) (x : α) (n : Nat) (t : Tree α) : ∀ K par, 0 < K → depth t ≤ K →
    t.insertS dups fresh x n K par = .ok (t.insert dups fresh x n par) := by
  induction t with
  | nil =>
    intro K par hk _
    cases K with
    | zero => omega
    | succ k => rfl
  | node i p v h l r ihl ihr =>
    intro K par hk hd
    cases K with
    | zero => omega
    | succ k =>
      obtain ⟨h1, h2⟩ := depth_node_le.1 hd
      have kl : l ≠ .nil → l.insertS dups fresh x n k (some i) = .ok (l.insert dups fresh x n (some i)) := fun hn =>
        ihl k (some i) (by have := (depth_pos_iff l).2 hn; omega) h1
      have kr : r ≠ .nil → r.insertS dups fresh x n k (some i) = .ok (r.insert dups fresh x n (some i)) := fun hn =>
        ihr k (some i) (by have := (depth_pos_iff r).2 hn; omega) h2
      rw [Tree.insertS]
      by_cases c1 : x < v
      · rw [if_pos c1]
        rw [Tree.insert, if_pos c1]
        cases l with
        | nil => rfl
        | node => simp only [kl (by simp), Res.bind_ok]
      · rw [if_neg c1]
        by_cases c2 : v < x
        · rw [if_pos (.inl c2), Tree.insert, if_neg c1, if_pos c2]
          cases r with
          | nil => rfl
          | node => simp only [kr (by simp), Res.bind_ok]
        · by_cases c3 : dups = true
          · rw [if_pos (.inr c3), Tree.insert, if_neg c1, if_neg c2, if_pos c3]
            cases r with
            | nil => rfl
            | node => simp only [kr (by simp), Res.bind_ok]
          · rw [if_neg (by simp [c2, c3]), Tree.insert, if_neg c1, if_neg c2, if_neg c3]

theorem removeS_enough (n : Nat) (t : Tree α) : ∀ K x, depth t < K → t.removeS n K x = .ok (t.remove n x) := by
  induction t with
  | nil =>
    intro K x hd
    cases K with
    | zero => omega
    | succ k => rfl
  | node i p v h l r ihl ihr =>
    intro K x hd
    cases K with
    | zero => omega
    | succ k =>
      have h0 : depth l < k ∧ depth r < k := by simp only [depth] at hd; omega
      unfold Tree.removeS
      rw [ihl k x h0.1, ihr k x h0.2]
      by_cases c1 : x < v
      · rw [if_pos c1, Res.bind_ok]
        generalize hq : l.remove n x = q
        unfold Tree.remove
        rw [if_pos c1, hq]
      · rw [if_neg c1]
        by_cases c2 : v < x
        · rw [if_pos c2, Res.bind_ok]
          generalize hq : r.remove n x = q
          unfold Tree.remove
          rw [if_neg c1, if_pos c2, hq]
        · rw [if_neg c2]
          unfold Tree.remove
          rw [if_neg c1, if_neg c2]
          have hdel : Tree.destroyS k (.node i p v h .nil .nil) = .ok () := by
            rw [destroyS_exact, if_pos]
            simp only [depth]; omega
          cases l with
          | nil =>
            cases r with
            | nil => simp only [hdel, Res.bind_ok]; rfl
            | node => simp only [hdel, Res.bind_ok]
          | node =>
            cases r with
            | nil => simp only [hdel, Res.bind_ok]
            | node ri rp rv rh rl rr =>
              obtain ⟨m, hm⟩ := leftmost_isSome (.node ri rp rv rh rl rr) (by simp)
              simp only [leftmostS_enough _ k m (Nat.le_of_lt h0.2) hm, Res.bind_ok, ihr k m h0.2, hm]

theorem avl_removeS_enough (K : Nat) (a : Avl α) (x : α) (h : depth a.root < K) : a.removeS K x = .ok (a.remove x) := by
  rw [Avl.removeS, removeS_enough a.size a.root K x h, Res.bind_ok]; rfl

theorem removeAllFuelS_enough (K fuel : Nat) : ∀ (a : Avl α) (x : α) (cnt : Nat), HeightsExact a.root → depth a.root < K →
    Avl.removeAllFuelS K fuel a x cnt = match Avl.removeAllFuel fuel a x cnt with | some r => .ok r | none => .ub := by
  induction fuel with
  | zero => intro a x cnt _ _; rfl
  | succ fuel ih =>
    intro a x cnt he hd
    rw [Avl.removeAllFuelS, avl_removeS_enough K a x hd, Res.bind_ok, Avl.removeAllFuel]
    have e1 : HeightsExact (a.remove x).1.root := exact_remove a.size a.root x he
    have e2 : depth (a.remove x).1.root < K := Nat.lt_of_le_of_lt (depth_remove a.size a.root x he) hd
    rcases hrem : a.remove x with ⟨a', b⟩
    rw [hrem] at e1 e2
    cases b with
    | true => exact ih a' x (cnt + 1) e1 e2
    | false => rfl

/-! ### C207 -/

/-- All calls on the tree `a` complete, with the results they have with an unlimited stack, if there is room for `K` nested calls. -/
def StackEnough (K : Nat) (a : Avl α) : Prop :=
  (∀ x, a.containsS K x = .ok (a.contains x)) ∧
  (∀ x, a.insertS K x = .ok (a.insert x)) ∧
  (∀ x, a.removeS K x = .ok (a.remove x)) ∧
  (∀ x, a.removeAllS K x = a.removeAll x) ∧
  a.clearS K = .ok a.clear ∧
  a.copyS K = .ok a.copy ∧
  (∀ f, a.root.inOrderS f K [] = .ok (Nary.bIn f a.root [])) ∧
  (∀ f, a.root.preOrderS f K [] = .ok (Nary.bPre f a.root [])) ∧
  a.root.posOrderS K [] = .ok (Nary.bPos a.root [])

theorem stackEnough (K : Nat) (a : Avl α) (he : HeightsExact a.root) (hd : depth a.root < K) : StackEnough K a := by
  have hle := Nat.le_of_lt hd
  refine ⟨fun x => containsS_enough x a.root K hle, fun x => ?_, fun x => avl_removeS_enough K a x hd, fun x => ?_, ?_, ?_,
    fun f => inOrderS_enough f a.root K [] hle, fun f => preOrderS_enough f a.root K [] hle, ?_⟩
  · rw [Avl.insertS, insertS_enough _ _ _ _ _ _ _ (by omega) hle, Res.bind_ok]; rfl
  · exact removeAllFuelS_enough K _ a x 0 he hd
  · rw [Avl.clearS, destroyS_exact, if_pos hle]; rfl
  · rw [Avl.copyS, Avl.copy, Avl.copyAssign]
    obtain ⟨root, dups, size, next⟩ := a
    cases root with
    | nil => rfl
    | node => simp only [copyS_exact, if_pos hle, Res.bind_ok]; rfl
  · rw [posOrderS_exact, if_pos hle]

/-- The full claim of C207: a stack with room for a number of nested calls logarithmic in the number of elements is enough for every call, whatever was inserted
and removed before. -/
def C207_statement : Prop :=
  ∃ c, ∀ (ops : List (Op Nat)), (∀ op ∈ ops, (∃ x, op = .insert x) ∨ ∃ x, op = .remove x) →
    ∀ a os, run (Avl.new : Avl Nat) ops = .ok (a, os) → StackEnough (c * (Nat.log2 (Spec.count a.root + 1) + 1)) a

/-- C207 (part): after every history, room for one nested call more than `height()` returns is enough for every call.
Missing: that the height is logarithmic, which fails (`C207_counterexample`). -/
theorem C207_height_partial (ops : List (Op α)) :
    ∃ a os, run (Avl.new : Avl α) ops = .ok (a, os) ∧ ∀ K, a.height < K → StackEnough K a := by
  obtain ⟨a, os, h1, h2, h3⟩ := C37_height ops
  exact ⟨a, os, h1, fun K hK => stackEnough K a h3 (by omega)⟩

/-- C207 (part): after insertions only, without duplicates, a logarithmic number of nested calls is enough; a stack with room for 131 of them is enough for every
tree with less than 2^64 elements. -/
theorem C207_insertions_partial (ops : List (Op α)) (hops : ∀ op ∈ ops, (∃ x, op = .insert x) ∨ op = .clear) :
    ∃ a os, run (Avl.new : Avl α) ops = .ok (a, os) ∧ StackEnough (2 * Nat.log2 (Spec.count a.root + 1) + 2) a ∧
      (Spec.count a.root < 2 ^ 64 → StackEnough 131 a) := by
  obtain ⟨a, os, h1, h2⟩ := C121_insertions_partial ops hops
  have he : HeightsExact a.root := run_exact (a := (Avl.new : Avl α)) trivial h1
  refine ⟨a, os, h1, stackEnough _ a he (by omega), fun hn => stackEnough _ a he ?_⟩
  have : Nat.log2 (Spec.count a.root + 1) < 65 := (Nat.log2_lt (by omega)).2 (by omega)
  omega

omit [LinearOrder α] in
/-- C207: destroying and copying the tree and `pos_order` need as many nested calls as the tree is deep: with less room they overflow the stack. -/
theorem C207_exact (K : Nat) (t : Tree α) :
    (t.destroyS K = .ok () ↔ depth t ≤ K) ∧ (t.destroyS K = .ub ↔ K < depth t) ∧
    (∀ par next, t.copyS K par next = .ub ↔ K < depth t) ∧ ∀ tr, t.posOrderS K tr = .ub ↔ K < depth t := by
  refine ⟨?_, ?_, fun par next => ?_, fun tr => ?_⟩
  · rw [destroyS_exact]; split <;> simp_all
  · rw [destroyS_exact]; split <;> simp <;> omega
  · rw [copyS_exact]; split <;> simp <;> omega
  · rw [posOrderS_exact]; split <;> simp <;> omega

end

/-- C207 fails: for every size `K` of the stack there is a history of `8 + 41·K` insertions and removals after which the tree has `K + 8` elements and cannot be
destroyed, cleared, copied or traversed without a stack overflow. -/
theorem C207_counterexample_linear (K : Nat) : ∃ a os, run (Avl.new : Avl Nat) (badOps K) = .ok (a, os) ∧
    (badOps K).length = 8 + 41 * K ∧ Spec.count a.root = K + 8 ∧
    a.clearS K = .ub ∧ a.copyS K = .ub ∧ a.root.posOrderS K [] = .ub := by
  obtain ⟨a, os, h1, h2, h3, h4, -⟩ := C121_counterexample_linear K
  have hlt : ¬ depth a.root ≤ K := by omega
  refine ⟨a, os, h1, h2, h3, ?_, ?_, ?_⟩
  · rw [Avl.clearS, destroyS_exact, if_neg hlt]; rfl
  · rw [Avl.copyS]
    obtain ⟨root, dups, size, next⟩ := a
    cases root with
    | nil => simp [depth] at h4
    | node => simp only [copyS_exact, if_neg hlt, Res.bind_ub]
  · rw [posOrderS_exact, if_neg hlt]

/-- C207 fails for every constant. -/
theorem C207_counterexample : ¬ C207_statement := by
  rintro ⟨c, h⟩
  refine C121_counterexample ⟨c, fun ops hops a os hr => ?_⟩
  obtain ⟨-, -, -, -, -, -, -, -, h9⟩ := h ops hops a os hr
  by_contra hc
  rw [posOrderS_exact, if_neg hc] at h9
  cases h9

/-- Seven values inserted in order: three nested calls are enough to destroy the tree, two are not; removing an absent value takes a fourth one. -/
example : let a := build false [1, 2, 3, 4, 5, 6, 7]
    a.clearS 3 = .ok a.clear ∧ a.clearS 2 = .ub ∧ a.removeS 4 9 = .ok (a.remove 9) ∧ a.removeS 3 9 = .ub ∧
    a.insertS 3 9 = .ok (a.insert 9) ∧ a.insertS 2 9 = .ub ∧ a.containsS 2 2 = .ok true ∧ a.containsS 1 2 = .ub ∧
    a.removeS 3 4 = .ub ∧ a.removeS 4 4 = .ok (a.remove 4) := by decide +kernel

/-- After six rounds of `badOps` 14 elements are 10 deep. -/
example : (match run (Avl.new : Avl Nat) (badOps 6) with
    | .ok (a, _) => Spec.count a.root == 14 && a.clearS 9 == .ub && a.clearS 10 == .ok a.clear
    | _ => false) = true := by decide +kernel

end Verif.Avl
