import Verif.Avl.Refine
import Mathlib.Order.Nat

/-! Properties C30–C41. -/

namespace Verif.Avl
open Spec
set_option linter.unusedSectionVars false
variable {α : Type} [LinearOrder α]

/-- A tree over `Nat` built by inserting a list of values. -/
def build (dups : Bool) (l : List Nat) : Avl Nat :=
  l.foldl (fun a x => (a.insert x).1) { (Avl.new : Avl Nat) with dups := dups }

/-! ### C30 sorted -/

/-- C30: every history runs without UB, and the in-order values are sorted; strictly if duplicates were never enabled. -/
theorem C30_sorted (ops : List (Op α)) :
    ∃ a os, run (Avl.new : Avl α) ops = .ok (a, os) ∧ (inorder a.root).Pairwise (· ≤ ·) ∧
      (Op.enableDuplicates ∉ ops → (inorder a.root).Pairwise (· < ·)) := by
  obtain ⟨a, h1, h2⟩ := sim_run ops (sim_new (α := α))
  refine ⟨a, _, h1, h2.sorted, fun hne => ?_⟩
  have := run_inv (fun a : Avl α => a.dups = false ∧ SSorted (inorder a.root)) (fun op => op ≠ .enableDuplicates)
    (fun a op a' o h hq hs => by
      cases op with
      | insert x =>
        simp [step] at hs
        rw [← hs.1]
        obtain ⟨-, -, k3, k4⟩ := insert_spec a.dups a.next x a.size a.root none h.2.sorted
        refine ⟨h.1, ?_⟩
        show SSorted (inorder (a.root.insert a.dups a.next x a.size none).1)
        cases hi : (a.root.insert a.dups a.next x a.size none).2.1 with
        | true => exact k4 hi h.1 h.2
        | false => rw [(k3 hi).1]; exact h.2
      | remove x =>
        simp [step] at hs
        rw [← hs.1]
        exact ⟨h.1, (remove_spec a.size a.root x h.2.sorted).2.2.2.2 h.2⟩
      | removeAll x =>
        simp only [step, Avl.removeAll] at hs
        cases hf : Avl.removeAllFuel (Avl.nodes a.root + 1) a x 0 with
        | none => rw [hf] at hs; cases hs
        | some res =>
          obtain ⟨a1, k⟩ := res
          rw [hf] at hs
          simp only [Res.bind_ok, Res.ok.injEq, Prod.mk.injEq] at hs
          rw [← hs.1]
          exact removeAllFuel_inv (fun a : Avl α => a.dups = false ∧ SSorted (inorder a.root)) x
            (fun a h => ⟨h.1, (remove_spec a.size a.root x h.2.sorted).2.2.2.2 h.2⟩) _ _ _ _ _ h hf
      | clear => simp [step] at hs; rw [← hs.1]; exact ⟨h.1, List.Pairwise.nil⟩
      | enableDuplicates => exact absurd rfl hq
      | disableDuplicates => simp [step] at hs; rw [← hs.1]; exact ⟨rfl, h.2⟩)
    ops Avl.new a _ ⟨rfl, List.Pairwise.nil⟩ (fun op h e => hne (e ▸ h)) h1
  exact this.2

example : (run (Avl.new : Avl Nat) [.insert 3, .insert 1, .insert 2, .insert 2, .remove 3]).isOk = true ∧
    Op.enableDuplicates ∉ ([.insert 3, .insert 1] : List (Op Nat)) := by decide +kernel
example : inorder (build true [5, 3, 9, 3, 5, 1]).root = [1, 3, 3, 5, 5, 9] := by decide +kernel

/-! ### C31 set -/

theorem mset_present (ops : List (Op α)) : Op.enableDuplicates ∉ ops →
    (MSet.empty.run ops).1.dups = false ∧
    ∀ x, (MSet.empty.run ops).1.mult x = if present ops x then 1 else 0 := by
  have gen : ∀ (ops : List (Op α)) (s : MSet α) (f : α → Bool), Op.enableDuplicates ∉ ops → s.dups = false →
      (∀ x, s.mult x = if f x then 1 else 0) → (s.run ops).1.dups = false ∧ ∀ x, (s.run ops).1.mult x =
        if ops.foldl (presentStep x) (f x) then 1 else 0 := by
    intro ops
    induction ops with
    | nil => intro s f _ h1 h2; exact ⟨h1, h2⟩
    | cons op ops ih =>
      intro s f hne h1 h2
      have hne' : Op.enableDuplicates ∉ ops := fun h => hne (List.mem_cons_of_mem _ h)
      have hop : op ≠ .enableDuplicates := fun h => hne (h ▸ List.mem_cons_self)
      simp only [MSet.run, List.foldl_cons]
      refine ih (s.step op).1 (fun x => presentStep x (f x) op) hne' ?_ ?_
      · cases op with
        | enableDuplicates => exact absurd rfl hop
        | insert x => simp only [MSet.step]; split <;> exact h1
        | remove x => simp only [MSet.step]; split <;> exact h1
        | removeAll x => exact h1
        | clear => exact h1
        | disableDuplicates => rfl
      · intro x
        cases op with
        | enableDuplicates => exact absurd rfl hop
        | insert y =>
          have hy := h2 y
          have hx := h2 x
          simp only [MSet.step, presentStep, h1]
          by_cases e : y = x
          · subst e
            cases hf : f y <;> simp [hf] at hy <;> simp [hy]
          · cases hf : f y <;> simp [hf] at hy <;> simp [hy, e, Ne.symm e, hx]
        | remove y =>
          have hy := h2 y
          have hx := h2 x
          simp only [MSet.step, presentStep]
          by_cases e : y = x
          · subst e
            cases hf : f y <;> simp [hf] at hy <;> simp [hy]
          · cases hf : f y <;> simp [hf] at hy <;> simp [hy, e, Ne.symm e, hx]
        | removeAll y =>
          have hx := h2 x
          simp only [MSet.step, presentStep]
          by_cases e : y = x
          · subst e; simp
          · simp [e, Ne.symm e, hx]
        | clear => simp [MSet.step, presentStep]
        | disableDuplicates => exact h2 x
  intro hne
  exact gen ops MSet.empty (fun _ => false) hne rfl (fun _ => rfl)

/-- C31: with duplicates disabled throughout, `contains x` is true iff the last call concerning `x` inserted it; the next
`insert x` returns true iff `x` is absent and the next `remove x` iff it is present. -/
theorem C31_set (ops : List (Op α)) (hd : Op.enableDuplicates ∉ ops) :
    ∃ a os, run (Avl.new : Avl α) ops = .ok (a, os) ∧ ∀ x, a.contains x = present ops x ∧
      (a.insert x).2 = !present ops x ∧ (a.remove x).2 = present ops x := by
  obtain ⟨a, h1, h2⟩ := sim_run ops (sim_new (α := α))
  obtain ⟨k1, k2⟩ := mset_present ops hd
  refine ⟨a, _, h1, fun x => ?_⟩
  have hm := h2.mem x
  rw [k2 x] at hm
  refine ⟨?_, ?_, ?_⟩
  · rw [Bool.eq_iff_iff, Avl.contains, contains_spec x a.root h2.sorted, hm]
    cases present ops x <;> simp
  · have := (sim_insert h2 x).2
    simp only [MSet.step, k1, k2 x] at this
    cases hp : present ops x <;> simp [hp] at this ⊢ <;> exact this
  · have := (sim_remove h2 x).2
    simp only [MSet.step, k2 x] at this
    cases hp : present ops x <;> simp [hp] at this ⊢ <;> exact this

example : Op.enableDuplicates ∉ ([.insert 4, .insert 4, .remove 4, .insert 7, .clear, .insert 9] : List (Op Nat)) ∧
    present ([.insert 4, .insert 4, .remove 4, .insert 7, .clear, .insert 9] : List (Op Nat)) 9 = true ∧
    present ([.insert 4, .insert 4, .remove 4, .insert 7] : List (Op Nat)) 4 = false := by decide

/-! ### C32 multiset -/

/-- C32: every history (duplicates switched on and off at will) returns exactly what a multiset returns, and afterwards
`contains` and the in-order multiplicities agree with it. -/
theorem C32_multiset (ops : List (Op α)) :
    ∃ a, run (Avl.new : Avl α) ops = .ok (a, ((MSet.empty : MSet α).run ops).2) ∧
      ∀ x, (inorder a.root).count x = ((MSet.empty : MSet α).run ops).1.mult x ∧
        (a.contains x = true ↔ 0 < ((MSet.empty : MSet α).run ops).1.mult x) := by
  obtain ⟨a, h1, h2⟩ := sim_run ops (sim_new (α := α))
  exact ⟨a, h1, fun x => ⟨h2.mult x, by rw [Avl.contains, contains_spec x a.root h2.sorted, h2.mem x]⟩⟩

example : ((MSet.empty : MSet Nat).run [.enableDuplicates, .insert 1, .insert 1, .insert 1, .remove 1, .removeAll 1]).2 =
    [.unit, .bool true, .bool true, .bool true, .bool true, .count 2] := by decide

/-! ### C33 size -/

/-- C33: `size()` is the number of nodes (modulo 2^64). -/
theorem C33_size (ops : List (Op α)) :
    ∃ a os, run (Avl.new : Avl α) ops = .ok (a, os) ∧ a.size = Spec.count a.root % W ∧
      (Spec.count a.root < W → a.size = Spec.count a.root) := by
  obtain ⟨a, h1, h2⟩ := sim_run ops (sim_new (α := α))
  have e : a.size = Spec.count a.root % W := by rw [count_eq]; exact h2.size
  exact ⟨a, _, h1, e, fun h => by rw [e, Nat.mod_eq_of_lt h]⟩

example : (build false [3, 1, 2, 2, 1]).size = 3 ∧ (build true [3, 1, 2, 2, 1]).size = 5 := by decide +kernel

/-! ### C34 balance under insertions -/

/-- C34: with duplicates disabled and no removals (insertions and `clear`), every node is balanced and
`height() ≤ 2·log2(n + 1) + 1` for `n` elements. -/
theorem C34_insert_balanced (ops : List (Op α)) (hops : ∀ op ∈ ops, (∃ x, op = .insert x) ∨ op = .clear) :
    ∃ a os, run (Avl.new : Avl α) ops = .ok (a, os) ∧ BalancedBy 1 a.root ∧
      a.height ≤ 2 * Nat.log2 (Spec.count a.root + 1) + 1 := by
  obtain ⟨a, h1, h2⟩ := sim_run ops (sim_new (α := α))
  have hb := run_inv (fun a : Avl α => a.dups = false ∧ HeightsExact a.root ∧ BalancedBy 1 a.root)
    (fun op => (∃ x, op = .insert x) ∨ op = .clear)
    (fun a op a' o h hq hs => by
      rcases hq with ⟨x, rfl⟩ | rfl
      · simp [step] at hs
        rw [← hs.1]
        exact ⟨h.1, (exact_insert a.dups a.next x a.size a.root none h.2.1).1,
          (bal_insert a.dups a.next x a.size a.root none h.2.1 h.2.2 (.inl h.1)).1⟩
      · simp [step] at hs; rw [← hs.1]; exact ⟨h.1, trivial, trivial⟩)
    ops Avl.new a _ ⟨rfl, trivial, trivial⟩ hops h1
  refine ⟨a, _, h1, hb.2.2, ?_⟩
  rw [Avl.height, height_eq hb.2.1]
  have := pow_le_count a.root hb.2.2
  have := (Nat.le_log2 (by omega)).2 this
  omega

example : (build false [1, 2, 3, 4, 5, 6, 7]).height = 3 ∧ BalancedBy 1 (build false [1, 2, 3, 4, 5, 6, 7]).root ∧
    (∀ op ∈ ([.insert 1, .clear, .insert 2] : List (Op Nat)), (∃ x, op = .insert x) ∨ op = .clear) := by
  refine ⟨by decide +kernel, by decide +kernel, by simp⟩

/-! ### C35 balance under removals -/

/-- C35 (full statement): every history of `insert` and `remove` with duplicates disabled keeps every node balanced. -/
def C35_statement : Prop :=
  ∀ (ops : List (Op Nat)), (∀ op ∈ ops, (∃ x, op = .insert x) ∨ ∃ x, op = .remove x) →
    ∀ a os, run (Avl.new : Avl Nat) ops = .ok (a, os) → BalancedBy 1 a.root

/-- C35 is false: with the left child's two subtrees equally deep the code uses the double rotation. -/
theorem C35_counterexample : ¬ C35_statement := by
  intro h
  have := h [.insert 10, .insert 4, .insert 12, .insert 2, .insert 6, .insert 13, .insert 1, .insert 7, .remove 13]
    (by simp) _ _ rfl
  revert this
  decide +kernel

/-- C35 (part): from any balanced state, reached by any history, one more `insert` (duplicates off) keeps balance, and one
more `remove` either keeps balance and lowers the height by at most one, or leaves the height unchanged at ≥ 4 with
imbalances of at most two.  So trees of height at most 3 stay balanced.
Missing: balance after removals from higher trees, which fails (`C35_counterexample`). -/
theorem C35_remove_balanced_partial (ops : List (Op α)) (a : Avl α) (os) (hr : run (Avl.new : Avl α) ops = .ok (a, os))
    (hb : BalancedBy 1 a.root) (x : α) :
    (a.dups = false → BalancedBy 1 (a.insert x).1.root) ∧
    (BalancedBy 1 (a.remove x).1.root ∧ a.height ≤ (a.remove x).1.height + 1 ∧ (a.remove x).1.height ≤ a.height ∨
      BalancedBy 2 (a.remove x).1.root ∧ (a.remove x).1.height = a.height ∧ 4 ≤ a.height) ∧
    (a.height ≤ 3 → BalancedBy 1 (a.remove x).1.root) := by
  have hex : HeightsExact a.root := run_exact (a := (Avl.new : Avl α)) trivial hr
  have hex' : HeightsExact (a.remove x).1.root := exact_remove a.size a.root x hex
  have key := bal_remove a.size a.root x hex hb
  refine ⟨fun hd => (bal_insert a.dups a.next x a.size a.root none hex hb (.inl hd)).1, ?_, ?_⟩
  · rw [Avl.height, Avl.height, height_eq hex, height_eq hex']
    rcases key with ⟨k1, k2⟩ | ⟨k1, k2, k3⟩
    · exact .inl ⟨k1, by show _ ≤ depth (a.root.remove a.size x).1 + 1; omega,
        by show depth (a.root.remove a.size x).1 ≤ _; omega⟩
    · exact .inr ⟨k1, k2, k3⟩
  · rw [Avl.height, height_eq hex]
    intro h3
    rcases key with ⟨k1, k2⟩ | ⟨k1, k2, k3⟩
    · exact k1
    · omega

example : ∃ a os, run (Avl.new : Avl Nat) [.insert 1, .insert 2, .insert 3, .insert 4, .remove 1] = .ok (a, os) ∧
    BalancedBy 1 a.root ∧ a.height = 2 := ⟨_, _, rfl, by decide +kernel, by decide +kernel⟩

/-! ### C36 balance with duplicates -/

/-- C36 (full statement): with duplicates enabled any insertions keep every node balanced. -/
def C36_statement : Prop := ∀ l : List Nat, BalancedBy 1 (build true l).root

/-- C36 is false: six equal values. -/
theorem C36_counterexample : ¬ C36_statement := by
  intro h
  have := h [0, 0, 0, 0, 0, 0]
  revert this
  decide +kernel

/-- C36 (part): with duplicates enabled, from any balanced state reached by any history, inserting a value that is not in
the tree keeps balance.  Missing: inserting a value already present, which can fail (`C36_counterexample`). -/
theorem C36_duplicates_balanced_partial (ops : List (Op α)) (a : Avl α) (os)
    (hr : run (Avl.new : Avl α) ops = .ok (a, os)) (hb : BalancedBy 1 a.root) (x : α) (hx : a.contains x = false) :
    BalancedBy 1 (a.insert x).1.root := by
  have hex : HeightsExact a.root := run_exact (a := (Avl.new : Avl α)) trivial hr
  obtain ⟨a', h1, h2⟩ := sim_run ops (sim_new (α := α))
  rw [h1] at hr
  simp only [Res.ok.injEq, Prod.mk.injEq] at hr
  rw [hr.1] at h2
  have hn : x ∉ Spec.inorder a.root := by
    intro hm
    rw [← contains_spec x a.root h2.sorted] at hm
    rw [Avl.contains, hm] at hx
    cases hx
  exact (bal_insert a.dups a.next x a.size a.root none hex hb (.inr hn)).1

example : ∃ a os, run (Avl.new : Avl Nat) [.enableDuplicates, .insert 1, .insert 1, .insert 1, .insert 4] = .ok (a, os) ∧
    BalancedBy 1 a.root ∧ a.contains 3 = false ∧ a.dups = true :=
  ⟨_, _, rfl, by decide +kernel, by decide +kernel, rfl⟩

/-! ### C37 height -/

/-- C37: `height()` is the number of nodes on the longest path, and so is every stored height, after every history
(including unbalanced trees). -/
theorem C37_height (ops : List (Op α)) :
    ∃ a os, run (Avl.new : Avl α) ops = .ok (a, os) ∧ a.height = depth a.root ∧ HeightsExact a.root := by
  obtain ⟨a, h1, -⟩ := sim_run ops (sim_new (α := α))
  have hex : HeightsExact a.root := run_exact (a := (Avl.new : Avl α)) trivial h1
  exact ⟨a, _, h1, height_eq hex, hex⟩

example : (build false [1, 2, 3, 4]).height = 3 ∧ depth (build false [1, 2, 3, 4]).root = 3 := by decide +kernel

/-! ### C38 extrema -/

/-- C38: on a non-empty tree `left_most()`/`right_most()` are the least and the greatest contained value; on an empty tree
they dereference null. -/
theorem C38_extrema (ops : List (Op α)) :
    ∃ a os, run (Avl.new : Avl α) ops = .ok (a, os) ∧
      (a.root ≠ .nil → ∃ m M, a.leftMost = .ok m ∧ a.rightMost = .ok M ∧ a.contains m = true ∧ a.contains M = true ∧
        ∀ x, a.contains x = true → m ≤ x ∧ x ≤ M) ∧
      (a.root = .nil → a.leftMost = .ub ∧ a.rightMost = .ub) := by
  obtain ⟨a, h1, h2⟩ := sim_run ops (sim_new (α := α))
  refine ⟨a, _, h1, fun hne => ?_, fun he => ?_⟩
  · have hc := fun x => contains_spec x a.root h2.sorted
    have hs := h2.sorted
    have hne' : inorder a.root ≠ [] := by
      cases ht : a.root with
      | nil => exact absurd ht hne
      | node i p v h l r => simp [inorder]
    have e1 : a.leftMost = .ok ((inorder a.root).head hne') := by
      unfold Avl.leftMost; rw [leftmost_eq, List.head?_eq_some_head hne']
    have e2 : a.rightMost = .ok ((inorder a.root).getLast hne') := by
      unfold Avl.rightMost; rw [rightmost_eq, List.getLast?_eq_some_getLast hne']
    refine ⟨_, _, e1, e2, (hc _).2 (List.head_mem _), (hc _).2 (List.getLast_mem _), fun x hx => ?_⟩
    have hx' := (hc x).1 hx
    generalize inorder a.root = l at *
    constructor
    · cases l with
      | nil => exact absurd rfl hne'
      | cons y l =>
        rcases List.mem_cons.1 hx' with rfl | h
        · exact le_refl _
        · exact (List.pairwise_cons.1 hs).1 x h
    · rw [← List.dropLast_append_getLast hne'] at hs hx'
      rcases List.mem_append.1 hx' with h | h
      · exact (List.pairwise_append.1 hs).2.2 x h _ (by simp)
      · simp at h; rw [h]
  · unfold Avl.leftMost Avl.rightMost
    rw [he]; exact ⟨rfl, rfl⟩

example : (build false [5, 1, 8]).root ≠ .nil ∧ (build false [5, 1, 8]).leftMost = .ok 1 ∧
    (build false [5, 1, 8]).rightMost = .ok 8 := by decide +kernel

/-! ### C39 copy -/

/-- C39 (full statement): a copy has the same values, shape, size and height, and later insertions (duplicates off) keep it
balanced; copy assignment over any tree gives the values of the source. -/
def C39_statement : Prop :=
  (∀ l : List Nat, let a := build false l
    a.copy.height = a.height ∧ ∀ x, BalancedBy 1 (a.copy.insert x).1.root) ∧
  (∀ l l' : List Nat, inorder ((build false l).copyAssign (build false l')).root = inorder (build false l').root)

/-- C39 is false: the copy of {1, 2} says height 1. -/
theorem C39_counterexample : ¬ C39_statement := by
  intro h
  have := (h.1 [1, 2]).1
  revert this
  decide +kernel

/-- One insertion into a copy of a perfect tree loses balance. -/
theorem C39_counterexample_balance :
    BalancedBy 1 (build false [8, 4, 12, 2, 6, 10, 14, 1, 3, 5, 7, 9, 11, 13, 15]).copy.root ∧
    ¬ BalancedBy 1 ((build false [8, 4, 12, 2, 6, 10, 14, 1, 3, 5, 7, 9, 11, 13, 15]).copy.insert 0).1.root := by
  decide +kernel

/-- Assigning an empty tree keeps the old nodes while `size()` becomes 0. -/
theorem C39_counterexample_empty :
    inorder ((build false [1, 2]).copyAssign (build false [])).root = [1, 2] ∧
    ((build false [1, 2]).copyAssign (build false [])).size = 0 := by decide +kernel

/-- C39 (part): a copy made from any reachable tree has the same values, shape, `size()` and duplicates flag, correct parent
links, and every later history on it behaves like the multiset from the source's contents; copy assignment from a non-empty
tree likewise.  Missing: `height()` and balance (all copied heights are 1), and assignment from an empty tree. -/
theorem C39_copy_partial (ops : List (Op α)) (dst : Avl α) :
    ∃ a os, run (Avl.new : Avl α) ops = .ok (a, os) ∧
      ∀ c, (c = a.copy ∨ (a.root ≠ .nil ∧ c = dst.copyAssign a)) →
        inorder c.root = inorder a.root ∧ SameShape a.root c.root ∧ c.size = a.size ∧ c.dups = a.dups ∧
        ParentsExact none c.root ∧
        ∀ later, ∃ c', run c later = .ok (c', ((MSet.empty.run ops).1.run later).2) ∧
          ∀ x, (inorder c'.root).count x = ((MSet.empty.run ops).1.run later).1.mult x := by
  obtain ⟨a, h1, h2⟩ := sim_run ops (sim_new (α := α))
  refine ⟨a, _, h1, fun c hc => ?_⟩
  have key : inorder c.root = inorder a.root ∧ SameShape a.root c.root ∧ c.size = a.size ∧ c.dups = a.dups ∧
        ParentsExact none c.root := by
    rcases hc with rfl | ⟨hne, rfl⟩
    · unfold Avl.copy Avl.copyAssign
      cases ht : a.root with
      | nil => exact ⟨rfl, .nil, rfl, rfl, trivial⟩
      | node i p v h l r =>
        obtain ⟨k1, k2, k3⟩ := copy_spec (.node i p v h l r) none (max (Avl.new : Avl α).next a.next)
        exact ⟨k1, k2, rfl, rfl, k3⟩
    · unfold Avl.copyAssign
      cases ht : a.root with
      | nil => exact absurd ht hne
      | node i p v h l r =>
        obtain ⟨k1, k2, k3⟩ := copy_spec (.node i p v h l r) none (max dst.next a.next)
        exact ⟨k1, k2, rfl, rfl, k3⟩
  obtain ⟨k1, k2, k3, k4, k5⟩ := key
  refine ⟨k1, k2, k3, k4, k5, fun later => ?_⟩
  have hs : Sim c (MSet.empty.run ops).1 :=
    ⟨by rw [k1]; exact h2.sorted, fun x => by rw [k1]; exact h2.mult x, by rw [k4]; exact h2.dups,
      by rw [k1, k3]; exact h2.size⟩
  obtain ⟨c', h3, h4⟩ := sim_run later hs
  exact ⟨c', h3, h4.mult⟩

example : inorder (build false [4, 2, 6, 1]).copy.root = [1, 2, 4, 6] ∧ (build false [4, 2, 6, 1]).copy.size = 4 ∧
    (build false [4, 2, 6, 1]).root ≠ .nil := by decide +kernel

/-! ### C40 move -/

/-- C40 (full statement): after a move the destination has the elements and the source has none and `size() = 0`. -/
def C40_statement : Prop :=
  ∀ (dst : Avl Nat) (l : List Nat), let src := build false l
    (dst.moveAssign src).1 = src ∧ (dst.moveAssign src).2.root = .nil ∧ (dst.moveAssign src).2.size = 0

/-- C40 is false: the source keeps its `size()`. -/
theorem C40_counterexample : ¬ C40_statement := by
  intro h
  have := (h Avl.new [1]).2.2
  revert this
  decide +kernel

/-- C40 (part): the destination becomes exactly the source (so later histories on it continue the source's), and the source
contains nothing.  Missing: the source's `size()`, which keeps its old value. -/
theorem C40_move_partial (dst src : Avl α) :
    (dst.moveAssign src).1 = src ∧ (∀ later, run (dst.moveAssign src).1 later = run src later) ∧
    (∀ x, (dst.moveAssign src).2.contains x = false) ∧ inorder (dst.moveAssign src).2.root = [] ∧
    (dst.moveAssign src).2.size = src.size :=
  ⟨rfl, fun _ => rfl, fun _ => rfl, rfl, rfl⟩

example : ((Avl.new : Avl Nat).moveAssign (build false [1, 2])).1.size = 2 := by decide +kernel

/-! ### C41 parents -/

/-- C41 (full statement): every stored parent is the real parent and the root has none. -/
def C41_statement : Prop := ∀ l : List Nat, ParentsExact none (build false l).root

/-- C41 is false: after inserting 1..6 node 3 hangs under 2 but still names 4. -/
theorem C41_counterexample : ¬ C41_statement := by
  intro h
  have := h [1, 2, 3, 4, 5, 6]
  revert this
  decide +kernel

/-- C41 (part): after every history the root has no parent, and in every copy of a reachable tree all parents are right.
Missing: inner subtrees moved by a rotation, whose parent link is stale (`C41_counterexample`). -/
theorem C41_parent_partial (ops : List (Op α)) :
    ∃ a os, run (Avl.new : Avl α) ops = .ok (a, os) ∧
      (∀ i p v h l r, a.root = .node i p v h l r → p = none) ∧ ParentsExact none a.copy.root := by
  obtain ⟨a, os, h1, h2⟩ := C39_copy_partial ops (Avl.new : Avl α)
  refine ⟨a, os, h1, ?_, (h2 a.copy (.inl rfl)).2.2.2.2.1⟩
  have := run_inv (fun a : Avl α => rootParent a.root = none) (fun _ => True)
    (fun a op a' o h _ hs => step_inv (fun a => rootParent a.root = none)
      (fun a x h => rootParent_insert a.dups a.next x a.size a.root h)
      (fun a x h => rootParent_remove a.size x a.root h)
      (fun _ _ => rfl) (fun _ _ h => h) a op a' o h hs)
    ops Avl.new a _ rfl (fun _ _ => trivial) h1
  intro i p v h l r e
  rw [e] at this
  exact this

example : ParentsExact none (build false [2, 1, 3]).root ∧ (build false [2, 1, 3]).root ≠ .nil := by decide +kernel

end Verif.Avl
