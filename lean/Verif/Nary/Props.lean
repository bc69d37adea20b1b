import Verif.Nary.Lemmas
import Verif.Avl.Refine
import Mathlib.Order.Nat

/-! Properties C42–C54. -/

namespace Verif.Nary
open Spec
set_option linter.unusedSectionVars false
variable {α : Type}

/-- A small n-ary tree with null slots, used in the examples: 0 with slots 1(4, null), null, 2(null, 5), 3. -/
def exTree : Node Nat :=
  (0, .node 1 (.node 4 .nil (.null .nil)) (.null (.node 2 (.null (.node 5 .nil .nil)) (.node 3 .nil .nil))))

/-- A small binary tree: 2(1, 4(3, 5)). -/
def exBin : Avl.Tree Nat :=
  .node 0 none 2 3 (.node 1 (some 0) 1 1 .nil .nil)
    (.node 2 (some 0) 4 2 (.node 3 (some 2) 3 1 .nil .nil) (.node 4 (some 2) 5 1 .nil .nil))

/-! ### C42, C43 binary traversals -/

theorem bInorder_vals (t : Avl.Tree α) : (bInorder t).map (fun n => n.2.1) = Avl.Spec.inorder t := by
  induction t with
  | nil => rfl
  | node i q v h l r ihl ihr => simp [bInorder, Avl.Spec.inorder, ihl, ihr]

/-- C42: with a callback that never stops, `in_order` calls it once per node in left-node-right order and returns the number
of nodes; on every reachable AVL tree the values come out sorted. -/
theorem C42_in_order (f : Callback (BNode α)) (hf : ∀ tr n, f tr n = false) (t : Avl.Tree α) :
    bIn f t [] = (bInorder t, bCount t) := by
  rw [bIn_never f hf]; rfl

theorem C42_in_order_sorted [LinearOrder α] (f : Callback (BNode α)) (hf : ∀ tr n, f tr n = false)
    (ops : List (Avl.Op α)) : ∃ a os, Avl.run (Avl.Avl.new : Avl.Avl α) ops = .ok (a, os) ∧
      ((bIn f a.root []).1.map fun n => n.2.1).Pairwise (· ≤ ·) := by
  obtain ⟨a, h1, h2⟩ := Avl.sim_run ops (Avl.sim_new (α := α))
  refine ⟨a, _, h1, ?_⟩
  rw [C42_in_order f hf, bInorder_vals]
  exact h2.sorted

example : ((bIn (fun _ _ => false) exBin []).1.map fun n => n.2.1) = [1, 2, 3, 4, 5] ∧
    (bIn (fun _ _ => false) exBin []).2 = 5 := by decide

/-- C43: `pre_order` with a callback that never stops and `pos_order` with any callback (its result is ignored) visit every
node once in their order and return the number of nodes. -/
theorem C43_pre_pos_order (f : Callback (BNode α)) (hf : ∀ tr n, f tr n = false) (t : Avl.Tree α) :
    bPre f t [] = (bPreorder t, bCount t) ∧ bPos t [] = (bPostorder t, bCount t) := by
  rw [bPre_never f hf, bPos_eq]; exact ⟨rfl, rfl⟩

/-- C43 for n-ary nodes. -/
theorem C43_nary (f : Callback (Node α)) (hf : ∀ tr n, f tr n = false) (n : Node α) :
    preOrder f n = (n :: preorder n.2, 1 + Spec.count n.2) ∧
    posOrder n = (postorder n.2 ++ [n], 1 + Spec.count n.2) := by
  unfold preOrder posOrder
  rw [preSlots_never f hf, posSlots_eq]
  simp [preorder, postorder, Spec.count]

example : ((bPre (fun _ _ => false) exBin []).1.map fun n => n.2.1) = [2, 1, 4, 3, 5] ∧
    ((bPos exBin []).1.map fun n => n.2.1) = [1, 3, 5, 4, 2] ∧
    ((preOrder (fun _ _ => false) exTree).1.map fun n => n.1) = [0, 1, 4, 2, 5, 3] ∧
    ((posOrder exTree).1.map fun n => n.1) = [4, 1, 5, 2, 3, 0] := by decide

/-! ### C44, C45 -/

/-- C44: `depth_first_search` calls the predicate on the nodes in pre-order up to and including the first for which it
returns true, and returns the number of calls. -/
theorem C44_dfs (f : Callback (Node α)) (root : Option (Node α)) :
    (dfs f root).1 = cut f [] (match root with | none => [] | some n => n :: preorder n.2) ∧
    (dfs f root).2 = (dfs f root).1.length := by
  cases root with
  | none => simp [dfs, cut]
  | some n => simp [dfs, dfsLoop_eq]

/-- C44 for binary trees (`children()` = left, right): without a stop the order is the binary pre-order. -/
theorem C44_dfs_binary (f : Callback (Node (Nat × α))) (hf : ∀ tr n, f tr n = false) (i p v h) (l r : Avl.Tree α) :
    (dfs f (some ((i, v), ofBinary l (ofBinary r .nil)))).1.map (·.1) =
      (bPreorder (.node i p v h l r)).map (fun n => (n.1, n.2.1)) := by
  rw [(C44_dfs f _).1, cut_of_not_stops _ _ _ (stops_never f hf _ _)]
  simp [ofBinary_preorder, bPreorder, preorder]

example : ((dfs (fun _ n => n.1 == 2) (some exTree)).1.map fun n => n.1) = [0, 1, 4, 2] ∧
    (dfs (fun _ n => n.1 == 2) (some exTree)).2 = 4 := by decide +kernel

/-- C45: `breadth_first_search` calls the predicate level by level, left to right, up to and including the first node for
which it returns true, and returns the number of calls. -/
theorem C45_bfs (f : Callback (Node α)) (root : Option (Node α)) :
    (bfs f root).1 = cut f [] (match root with | none => [] | some n => levelOrder (.node n.1 n.2 .nil)) ∧
    (bfs f root).2 = (bfs f root).1.length := by
  cases root with
  | none => simp [bfs, cut]
  | some n =>
    have e : bOrder [n] = levelOrder (.node n.1 n.2 .nil) := by
      rw [bOrder_levels _ [n] rfl]
      unfold levelOrder
      have h1 : levels (.node n.1 n.2 .nil) = levelsL [n] := levels_eq _
      rw [h1]
      congr 1; funext d
      exact (atDepth_eq (.node n.1 n.2 .nil) d).symm
    simp [bfs, bfsLoop_eq, e]

example : ((bfs (fun _ n => n.1 == 4) (some exTree)).1.map fun n => n.1) = [0, 1, 2, 3, 4] ∧
    (bfs (fun _ n => n.1 == 4) (some exTree)).2 = 5 := by decide +kernel

theorem atDepth_out : ∀ (t : Slots α) (d : Nat), levels t ≤ d → atDepth t d = [] := by
  intro t
  induction t with
  | nil => intros; cases ‹Nat› <;> rfl
  | null r ih => intro d h; exact ih d h
  | node v k r ihk ihr =>
    intro d h
    simp only [levels] at h
    cases d with
    | zero => omega
    | succ d => simp only [atDepth]; rw [ihk d (by omega), ihr (d + 1) (by omega)]; rfl

theorem atDepth_length : ∀ (t : Slots α) (L : Nat), levels t ≤ L →
    ((List.range L).map fun d => (atDepth t d).length).sum = Spec.count t := by
  intro t
  induction t with
  | nil => intro L _; induction L with
    | zero => rfl
    | succ L ih => simp only [List.range_succ, List.map_append, List.sum_append, ih (Nat.zero_le _)]; simp [atDepth, Spec.count]
  | null r ih => intro L h; exact ih L h
  | node v k r ihk ihr =>
    intro L h
    simp only [levels] at h
    obtain ⟨L, rfl⟩ : ∃ M, L = M + 1 := ⟨L - 1, by omega⟩
    have h1 := ihk L (by omega)
    have h2 := ihr (L + 1) (by omega)
    rw [List.range_succ_eq_map, List.map_cons, List.sum_cons, List.map_map] at h2 ⊢
    simp only [atDepth, List.length_cons, Function.comp_def, List.length_append, Nat.succ_eq_add_one] at h2 ⊢
    have h3 : ∀ (l : List Nat) (f g : Nat → Nat), (l.map fun d => f d + g d).sum = (l.map f).sum + (l.map g).sum := by
      intro l f g
      induction l with
      | nil => rfl
      | cons a l ih => simp only [List.map_cons, List.sum_cons, ih]; omega
    rw [h3, h1, Spec.count]
    omega

theorem levelOrder_length (t : Slots α) : (levelOrder t).length = Spec.count t := by
  rw [levelOrder, List.length_flatMap, atDepth_length t _ (Nat.le_refl _)]

/-- Every node is visited exactly once by either search when the predicate never holds. -/
theorem C45_all_visited (f : Callback (Node α)) (hf : ∀ tr n, f tr n = false) (n : Node α) :
    (dfs f (some n)).2 = 1 + Spec.count n.2 ∧ (bfs f (some n)).2 = 1 + Spec.count n.2 := by
  constructor
  · rw [(C44_dfs f _).2, (C44_dfs f _).1, cut_of_not_stops _ _ _ (stops_never f hf _ _)]
    simp [preorder_length]; omega
  · rw [(C45_bfs f _).2, (C45_bfs f _).1, cut_of_not_stops _ _ _ (stops_never f hf _ _)]
    simp [levelOrder_length, Spec.count]

/-! ### C46 -/

/-- C46 (full statement): a callback that returned true is not called again, i.e. the calls are a cut of the full order. -/
def C46_statement : Prop :=
  (∀ (f : Callback (BNode Nat)) (t : Avl.Tree Nat), (bIn f t []).1 = cut f [] (bInorder t)) ∧
  (∀ (f : Callback (BNode Nat)) (t : Avl.Tree Nat), (bPre f t []).1 = cut f [] (bPreorder t))

/-- C46 is false: `in_order` goes on after the stop at 1. -/
theorem C46_counterexample : ¬ C46_statement := by
  intro h
  have := congrArg List.length (h.1 (fun _ n => n.2.1 == 1) exBin)
  revert this
  decide

/-- The same for `pre_order`. -/
theorem C46_counterexample_pre :
    (bPre (fun _ n => n.2.1 == 1) exBin []).1 ≠ cut (fun _ n => n.2.1 == 1) [] (bPreorder exBin) := by
  intro h
  have := congrArg List.length h
  revert this
  decide

/-- C46 (part): what a true result does: in `in_order` it hides the node's right subtree, in `pre_order` its children; the
returned number is always the number of calls.  At the root this is the documented stop: in `in_order` no call follows the
one on the root, in `pre_order` it is the only one.
Missing: stopping the whole search from an inner node, which the code does not do (`C46_counterexample`). -/
theorem C46_stop_partial (f : Callback (BNode α)) (p : BNode α → Bool) (i q v h) (l r : Avl.Tree α) :
    let t := Avl.Tree.node i q v h l r
    bIn (fun _ n => p n) t [] = (bInorderPruned p t, (bInorderPruned p t).length) ∧
    bPre (fun _ n => p n) t [] = (bPreorderPruned p t, (bPreorderPruned p t).length) ∧
    (bIn f t []).2 = (bIn f t []).1.length ∧ (bPre f t []).2 = (bPre f t []).1.length ∧
    (f (bIn f l []).1 (i, v, l, r) = true → (bIn f t []).1 = (bIn f l []).1 ++ [(i, v, l, r)]) ∧
    (f [] (i, v, l, r) = true → (bPre f t []).1 = [(i, v, l, r)]) := by
  intro t
  refine ⟨by rw [bIn_pruned]; rfl, by rw [bPre_pruned]; rfl, ?_, ?_, ?_, ?_⟩
  · have := (bIn_count f t []).1; simp at this; exact this.symm
  · have := (bPre_count f t []).1; simp at this; exact this.symm
  · intro hf; simp [t, bIn, hf]
  · intro hf; simp [t, bPre, hf]

example : ((bIn (fun _ n => n.2.1 == 2) exBin []).1.map fun n => n.2.1) = [1, 2] ∧
    ((bPre (fun _ n => n.2.1 == 4) exBin []).1.map fun n => n.2.1) = [2, 1, 4] := by decide

/-! ### C47 child slots -/

/-- Reachable slots: parents are this node, identities are distinct and below the allocator. -/
structure NInv (max : Nat) (s : NodeSt α) : Prop where
  len : s.slots.length ≤ max
  parent : ∀ k, some k ∈ s.slots → k.parent = some s.self
  fresh : ∀ k, some k ∈ s.slots → k.id < s.next
  distinct : (s.slots.filterMap id).Pairwise (fun a b => a.id ≠ b.id)

theorem filterMap_set {l : List (Option (Kid α))} {p : Nat} {x : Kid α} (h : l[p]? = some none) :
    ∃ a b, l.filterMap id = a ++ b ∧ (l.set p (some x)).filterMap id = a ++ x :: b := by
  induction l generalizing p with
  | nil => simp at h
  | cons o l ih =>
    cases p with
    | zero =>
      simp at h; subst h
      exact ⟨[], l.filterMap id, by simp, by simp⟩
    | succ p =>
      simp at h
      obtain ⟨a, b, h1, h2⟩ := ih h
      cases o with
      | none => exact ⟨a, b, by simpa using h1, by simpa using h2⟩
      | some k => exact ⟨k :: a, b, by simpa using h1, by simpa using h2⟩

theorem filterMap_unset {l : List (Option (Kid α))} {p : Nat} {x : Kid α} (h : l[p]? = some (some x)) :
    ∃ a b, l.filterMap id = a ++ x :: b ∧ (l.set p none).filterMap id = a ++ b := by
  induction l generalizing p with
  | nil => simp at h
  | cons o l ih =>
    cases p with
    | zero =>
      simp at h; subst h
      exact ⟨[], l.filterMap id, by simp, by simp⟩
    | succ p =>
      simp at h
      obtain ⟨a, b, h1, h2⟩ := ih h
      cases o with
      | none => exact ⟨a, b, by simpa using h1, by simpa using h2⟩
      | some k => exact ⟨k :: a, b, by simpa using h1, by simpa using h2⟩

theorem mem_filterMap_id {l : List (Option (Kid α))} {k : Kid α} : k ∈ l.filterMap id ↔ some k ∈ l := by
  simp

theorem pairwise_insert {R : Kid α → Kid α → Prop} {a b : List (Kid α)} {x : Kid α} (h : (a ++ b).Pairwise R)
    (h1 : ∀ y ∈ a, R y x) (h2 : ∀ y ∈ b, R x y) : (a ++ x :: b).Pairwise R := by
  rw [List.pairwise_append] at h ⊢
  obtain ⟨ha, hb, hab⟩ := h
  refine ⟨ha, List.pairwise_cons.2 ⟨h2, hb⟩, fun y hy z hz => ?_⟩
  rcases List.mem_cons.1 hz with rfl | hz
  · exact h1 y hy
  · exact hab y hy z hz

/-- Filling a null slot. -/
theorem NInv.fill {max : Nat} {s : NodeSt α} (h : NInv max s) {l : List (Option (Kid α))} {p : Nat} (x : α)
    (hl : l.filterMap id = s.slots.filterMap id) (hlen : l.length ≤ max) (hp : l[p]? = some none) :
    NInv max { s with slots := l.set p (some (s.newKid x)), next := s.next + 1 } ∧
    ((l.set p (some (s.newKid x))).filterMap id).length = (s.slots.filterMap id).length + 1 := by
  obtain ⟨a, b, h1, h2⟩ := filterMap_set (x := s.newKid x) hp
  have hmem : ∀ k, some k ∈ l.set p (some (s.newKid x)) → k = s.newKid x ∨ some k ∈ s.slots := by
    intro k hk
    rw [← mem_filterMap_id, h2] at hk
    rw [← mem_filterMap_id, ← hl, h1]
    rcases List.mem_append.1 hk with hk | hk
    · right; exact List.mem_append_left _ hk
    · rcases List.mem_cons.1 hk with rfl | hk
      · left; rfl
      · right; exact List.mem_append_right _ hk
  refine ⟨⟨by simpa using hlen, fun k hk => ?_, fun k hk => ?_, ?_⟩, ?_⟩
  · rcases hmem k hk with rfl | hk
    · rfl
    · exact h.parent k hk
  · rcases hmem k hk with rfl | hk
    · exact Nat.lt_succ_self _
    · exact Nat.lt_succ_of_lt (h.fresh k hk)
  · show ((l.set p (some (s.newKid x))).filterMap id).Pairwise _
    rw [h2]
    have hd := h.distinct
    rw [← hl, h1] at hd
    have hf : ∀ y ∈ a ++ b, y.id < s.next := fun y hy => h.fresh y (by rw [← mem_filterMap_id, ← hl, h1]; exact hy)
    exact pairwise_insert hd (fun y hy => Nat.ne_of_lt (hf y (List.mem_append_left _ hy)))
      (fun y hy => (Nat.ne_of_lt (hf y (List.mem_append_right _ hy))).symm)
  · rw [h2, ← hl, h1]; simp; omega

theorem filterMap_grow (l : List (Option (Kid α))) (n : Nat) :
    (NodeSt.grow l n).filterMap id = l.filterMap id := by
  simp [NodeSt.grow, List.filterMap_append, List.filterMap_replicate_of_none]

theorem NInv.sub {max : Nat} {s : NodeSt α} (h : NInv max s) {l : List (Option (Kid α))} (hlen : l.length ≤ max)
    (hs : (l.filterMap id).Sublist (s.slots.filterMap id)) : NInv max { s with slots := l } :=
  ⟨hlen, fun k hk => h.parent k (mem_filterMap_id.1 (hs.subset (mem_filterMap_id.2 hk))),
    fun k hk => h.fresh k (mem_filterMap_id.1 (hs.subset (mem_filterMap_id.2 hk))), h.distinct.sublist hs⟩

/-- Meaning of the results of the calls: `b` says whether the call had its effect. -/
def Effect (s s' : NodeSt α) (b : Bool) : NOp α → Prop
  | .addChild _ | .insertFirstNull _ | .insertAt _ _ =>
    (b = true ∧ kidCount s' = kidCount s + 1) ∨ (b = false ∧ s' = s)
  | .extractChild _ => (b = true ∧ kidCount s' + 1 = kidCount s) ∨ (b = false ∧ s' = s)
  | .deleteChild _ => (b = true ∧ s'.slots.length + 1 = s.slots.length) ∨ (b = false ∧ s' = s)
  | .replaceAt _ _ => (b = true ∧ kidCount s' = kidCount s) ∨ (b = false ∧ kidCount s' = kidCount s + 1)
  | .clear => kidCount s' = 0

theorem nstep_inv {max : Nat} {s : NodeSt α} (h : NInv max s) (op : NOp α)
    (hop : ∀ p x, op = .replaceAt p x → p < max) :
    ∃ s' b, nstep max s op = .ok (s', b) ∧ NInv max s' ∧ Effect s s' b op := by
  have add : ∀ x, NInv max (s.addChild max x).1 ∧ Effect s (s.addChild max x).1 (s.addChild max x).2 (.addChild x) := by
    intro x
    unfold NodeSt.addChild
    split
    · next hl =>
      have := h.fill (l := s.slots ++ [none]) (p := s.slots.length) x (by simp) (by simp; omega) (by simp)
      simp only [List.set_append_right, Nat.le_refl, Nat.sub_self, List.set_cons_zero] at this
      exact ⟨this.1, .inl ⟨rfl, this.2⟩⟩
    · exact ⟨h, .inr ⟨rfl, rfl⟩⟩
  cases op with
  | addChild x => exact ⟨_, _, rfl, add x⟩
  | insertFirstNull x =>
    refine ⟨(s.insertFirstNull max x).1, (s.insertFirstNull max x).2, rfl, ?_⟩
    unfold NodeSt.insertFirstNull
    simp only
    split
    · next hl =>
      have hp : s.slots[s.slots.findIdx fun o => o.isNone]? = some none := by
        rw [List.getElem?_eq_getElem hl]
        have := List.findIdx_getElem (w := hl)
        simpa using this
      have := h.fill x rfl h.len hp
      exact ⟨this.1, .inl ⟨rfl, this.2⟩⟩
    · exact add x
  | insertAt p x =>
    refine ⟨(s.insertAt max p x).1, (s.insertAt max p x).2, rfl, ?_⟩
    unfold NodeSt.insertAt
    split
    · next hm =>
      split
      · next hl =>
        split
        · next hp =>
          have := h.fill x rfl h.len hp
          exact ⟨this.1, .inl ⟨rfl, this.2⟩⟩
        · exact ⟨h, .inr ⟨rfl, rfl⟩⟩
      · next hl =>
        have := h.fill (l := NodeSt.grow s.slots (p + 1)) (p := p) x (filterMap_grow _ _)
          (by simp [NodeSt.grow]; omega)
          (by rw [NodeSt.grow, List.getElem?_append_right (by omega)]; simp [List.getElem?_replicate]; omega)
        exact ⟨this.1, .inl ⟨rfl, this.2⟩⟩
    · exact ⟨h, .inr ⟨rfl, rfl⟩⟩
  | replaceAt p x =>
    have hm := hop p x rfl
    simp only [nstep, NodeSt.replaceAt, if_pos hm]
    by_cases hl : p < s.slots.length
    · simp only [if_pos hl]
      cases hp : s.slots[p]? with
      | none => rw [List.getElem?_eq_none_iff] at hp; omega
      | some o =>
        cases o with
        | none =>
          simp only [if_pos hl, Res.bind_ok]
          have := h.fill x rfl h.len hp
          exact ⟨_, _, rfl, this.1, .inr ⟨rfl, this.2⟩⟩
        | some k =>
          have hl' : p < (s.slots.set p none).length := by simpa using hl
          simp only [if_pos hl', Res.bind_ok]
          obtain ⟨a, b, e1, e2⟩ := filterMap_unset hp
          have hs : NInv max { s with slots := s.slots.set p none } :=
            h.sub (by simpa using h.len) (by rw [e1, e2]; exact (List.sublist_cons_self _ _).append_left _)
          have := hs.fill x rfl hs.len (p := p) (by simp [hl])
          refine ⟨_, _, rfl, this.1, .inl ⟨rfl, ?_⟩⟩
          have := this.2
          simp only [kidCount]
          refine Eq.trans this ?_
          show ((s.slots.set p none).filterMap id).length + 1 = _
          rw [e1, e2]; simp; omega
    · simp only [if_neg hl]
      have hl' : p < (NodeSt.grow s.slots (p + 1)).length := by simp [NodeSt.grow]; omega
      simp only [if_pos hl', Res.bind_ok]
      have := h.fill (l := NodeSt.grow s.slots (p + 1)) (p := p) x (filterMap_grow _ _)
          (by simp [NodeSt.grow]; omega)
          (by rw [NodeSt.grow, List.getElem?_append_right (by omega)]; simp [List.getElem?_replicate]; omega)
      exact ⟨_, _, rfl, this.1, .inr ⟨rfl, this.2⟩⟩
  | deleteChild p =>
    refine ⟨(s.deleteChild p).1, (s.deleteChild p).2, rfl, ?_⟩
    unfold NodeSt.deleteChild
    split
    · next hl =>
      have hlen : (s.slots.eraseIdx p).length + 1 = s.slots.length := by
        rw [List.length_eraseIdx_of_lt hl]; omega
      exact ⟨h.sub (by have := h.len; omega) ((List.eraseIdx_sublist _ _).filterMap _), .inl ⟨rfl, hlen⟩⟩
    · exact ⟨h, .inr ⟨rfl, rfl⟩⟩
  | extractChild p =>
    refine ⟨_, _, rfl, ?_⟩
    unfold NodeSt.extractChild
    split
    · next hl =>
      split
      · next k hp =>
        obtain ⟨a, b, e1, e2⟩ := filterMap_unset hp
        refine ⟨h.sub (by simpa using h.len) (by rw [e1, e2]; exact (List.sublist_cons_self _ _).append_left _),
          .inl ⟨rfl, ?_⟩⟩
        show ((s.slots.set p none).filterMap id).length + 1 = _
        rw [kidCount, e1, e2]; simp; omega
      · exact ⟨h, .inr ⟨rfl, rfl⟩⟩
    · exact ⟨h, .inr ⟨rfl, rfl⟩⟩
  | clear =>
    exact ⟨_, _, rfl, ⟨Nat.zero_le _, by simp [NodeSt.clear], by simp [NodeSt.clear], List.Pairwise.nil⟩, rfl⟩

theorem nrun_inv {max : Nat} (ops : List (NOp α)) : ∀ {s : NodeSt α}, NInv max s →
    (∀ p x, NOp.replaceAt p x ∈ ops → p < max) → ∃ s', nrun max s ops = .ok s' ∧ NInv max s' := by
  induction ops with
  | nil => intro s h _; exact ⟨s, rfl, h⟩
  | cons op ops ih =>
    intro s h hr
    obtain ⟨s', b, h1, h2, -⟩ := nstep_inv h op (fun p x e => hr p x (e ▸ List.mem_cons_self))
    obtain ⟨s'', h3, h4⟩ := ih h2 (fun p x hm => hr p x (List.mem_cons_of_mem _ hm))
    exact ⟨s'', by simp [nrun, h1, h3], h4⟩

/-- C47: from a fresh node, every sequence of calls (with `replace_at` inside the limit) runs without UB and leaves at most
`max` slots; all children are distinct nodes whose parent is this node; and the next call's result says exactly what it
did (`Effect`). -/
theorem C47_slots (max self : Nat) (ops : List (NOp α)) (hr : ∀ p x, NOp.replaceAt p x ∈ ops → p < max) :
    ∃ s, nrun max (NodeSt.fresh self : NodeSt α) ops = .ok s ∧ s.slots.length ≤ max ∧
      (∀ p k, kidAt s p = some k → k.parent = some self) ∧
      (∀ p q k k', kidAt s p = some k → kidAt s q = some k' → k.id = k'.id → p = q) ∧
      ∀ op, (∀ p x, op = .replaceAt p x → p < max) → ∃ s' b, nstep max s op = .ok (s', b) ∧ Effect s s' b op := by
  have h0 : NInv max (NodeSt.fresh self : NodeSt α) :=
    ⟨Nat.zero_le _, by simp [NodeSt.fresh], by simp [NodeSt.fresh], List.Pairwise.nil⟩
  obtain ⟨s, h1, h2⟩ := nrun_inv ops h0 hr
  have hself : s.self = self := by
    have : ∀ (ops : List (NOp α)) (s s' : NodeSt α), nrun max s ops = .ok s' → s'.self = s.self := by
      intro ops
      induction ops with
      | nil => intro s s' h; simp [nrun] at h; rw [h]
      | cons op ops ih =>
        intro s s' h
        simp only [nrun] at h
        rw [Res.bind_eq_ok] at h
        obtain ⟨⟨s1, b⟩, e1, h⟩ := h
        rw [ih s1 s' h]
        cases op with
        | addChild x => simp [nstep, NodeSt.addChild] at e1; split at e1 <;> simp at e1 <;> rw [← e1.1]
        | insertFirstNull x =>
          simp only [nstep, NodeSt.insertFirstNull, NodeSt.addChild] at e1
          split at e1
          · simp at e1; rw [← e1.1]
          · split at e1 <;> simp at e1 <;> rw [← e1.1]
        | insertAt p x =>
          simp only [nstep, NodeSt.insertAt] at e1
          split at e1
          · split at e1
            · split at e1 <;> simp at e1 <;> rw [← e1.1]
            · simp at e1; rw [← e1.1]
          · simp at e1; rw [← e1.1]
        | replaceAt p x =>
          simp only [nstep] at e1
          rw [Res.bind_eq_ok] at e1
          obtain ⟨⟨s2, o⟩, e2, e1⟩ := e1
          simp at e1
          simp only [NodeSt.replaceAt] at e2
          rw [← e1.1]
          repeat' split at e2
          all_goals first | cases e2; done | (simp at e2; rw [← e2.1])
        | deleteChild p => simp [nstep, NodeSt.deleteChild] at e1; split at e1 <;> simp at e1 <;> rw [← e1.1]
        | extractChild p =>
          simp only [nstep, NodeSt.extractChild] at e1
          simp only [Res.ok.injEq, Prod.mk.injEq] at e1
          rw [← e1.1]
          split
          · split <;> rfl
          · rfl
        | clear => simp [nstep, NodeSt.clear] at e1; rw [← e1.1]
    rw [this ops _ _ h1]; rfl
  have hmem : ∀ p k, kidAt s p = some k → some k ∈ s.slots := by
    intro p k h
    unfold kidAt at h
    cases hp : s.slots[p]? with
    | none => rw [hp] at h; cases h
    | some o =>
      rw [hp] at h
      have : o = some k := h
      subst this
      exact List.mem_of_getElem? hp
  refine ⟨s, h1, h2.len, fun p k h => hself ▸ h2.parent k (hmem p k h), ?_, fun op hop => ?_⟩
  · have key : ∀ (l : List (Option (Kid α))), (l.filterMap id).Pairwise (fun a b => a.id ≠ b.id) →
        ∀ (p q : Nat) (k k' : Kid α), (l[p]?).join = some k → (l[q]?).join = some k' → k.id = k'.id → p = q := by
      intro l
      have m : ∀ (l : List (Option (Kid α))) (p : Nat) (k : Kid α), (l[p]?).join = some k → k ∈ l.filterMap id := by
        intro l p k h
        cases hp : l[p]? with
        | none => rw [hp] at h; cases h
        | some o =>
          rw [hp] at h
          have : o = some k := h
          subst this
          exact mem_filterMap_id.2 (List.mem_of_getElem? hp)
      induction l with
      | nil => intro _ p q k k' h; simp at h
      | cons o l ih =>
        intro hd p q k k' hk hk' he
        have hd' : (l.filterMap id).Pairwise (fun a b => a.id ≠ b.id) :=
          hd.sublist ((List.sublist_cons_self _ _).filterMap _)
        cases p with
        | zero =>
          cases q with
          | zero => rfl
          | succ q =>
            simp at hk hk'
            subst hk
            simp at hd
            exact absurd he (hd.1 k' (by have := m l q k' (by simpa using hk'); simpa using this))
        | succ p =>
          cases q with
          | zero =>
            simp at hk hk'
            subst hk'
            simp at hd
            exact absurd he.symm (hd.1 k (by have := m l p k (by simpa using hk); simpa using this))
          | succ q =>
            have := ih hd' p q k k' (by simpa using hk) (by simpa using hk') he
            omega
    exact key s.slots h2.distinct
  · obtain ⟨s', b, e1, -, e3⟩ := nstep_inv h2 op hop
    exact ⟨s', b, e1, e3⟩

example : nrun 3 (NodeSt.fresh 0 : NodeSt Nat) [.insertAt 2 7, .addChild 9, .insertFirstNull 5, .extractChild 2,
      .deleteChild 1, .replaceAt 1 8] = .ok ⟨0, [some ⟨2, 5, some 0⟩, some ⟨3, 8, some 0⟩], 4⟩ ∧
    ∀ p x, NOp.replaceAt p x ∈ ([.insertAt 2 7, .replaceAt 1 8] : List (NOp Nat)) → p < 3 := by
  refine ⟨by decide, ?_⟩
  intro p x h
  simp at h
  omega

/-! ### C48 replace_at outside the limit -/

/-- C48 (full statement): `replace_at` with a position outside the limit changes nothing and returns null. -/
def C48_statement : Prop :=
  ∀ (max self : Nat) (ops : List (NOp Nat)) (s : NodeSt Nat), nrun max (NodeSt.fresh self) ops = .ok s →
    ∀ p x, max ≤ p → s.replaceAt max p x = .ok (s, none)

/-- C48 is false on every reachable node and every such position: the write is out of bounds. -/
theorem C48_counterexample_all (max self : Nat) (ops : List (NOp α)) (hr : ∀ p x, NOp.replaceAt p x ∈ ops → p < max) :
    ∃ s, nrun max (NodeSt.fresh self : NodeSt α) ops = .ok s ∧ ∀ p x, max ≤ p → s.replaceAt max p x = .ub := by
  obtain ⟨s, h1, h2, -⟩ := C47_slots max self ops hr
  refine ⟨s, h1, fun p x hp => ?_⟩
  unfold NodeSt.replaceAt
  simp only [if_neg (show ¬ p < max by omega), if_neg (show ¬ p < s.slots.length by omega)]

theorem C48_counterexample : ¬ C48_statement := by
  intro h
  have := h 2 0 [] (NodeSt.fresh 0) rfl 2 5 (by omega)
  revert this
  decide

/-- C48 (part): inside the limit `replace_at` never leaves the vector; it puts the new child at the position, returns the
old child, if any, detached from its parent, and touches no other slot.
Missing: positions outside the limit (UB, `C48_counterexample_all`). -/
theorem C48_replace_at_partial (max : Nat) (s : NodeSt α) (p : Nat) (x : α) (hp : p < max) :
    ∃ s' o, s.replaceAt max p x = .ok (s', o) ∧ o = (kidAt s p).map (fun k => { k with parent := none }) ∧
      ∀ q, kidAt s' q = if q = p then some ⟨s.next, x, some s.self⟩ else kidAt s q := by
  unfold NodeSt.replaceAt kidAt
  simp only [if_pos hp]
  by_cases hl : p < s.slots.length
  · simp only [if_pos hl]
    cases hs : s.slots[p]? with
    | none => rw [List.getElem?_eq_none_iff] at hs; omega
    | some o =>
      cases o with
      | none =>
        simp only [if_pos hl]
        refine ⟨_, _, rfl, rfl, fun q => ?_⟩
        by_cases e : q = p
        · subst e; simp [hl, NodeSt.newKid]
        · simp [e, Ne.symm e]
      | some k =>
        have hl' : p < (s.slots.set p none).length := by simpa using hl
        simp only [if_pos hl']
        refine ⟨_, _, rfl, rfl, fun q => ?_⟩
        by_cases e : q = p
        · subst e; simp [hl, NodeSt.newKid]
        · simp [e, Ne.symm e]
  · simp only [if_neg hl]
    have hl' : p < (NodeSt.grow s.slots (p + 1)).length := by simp [NodeSt.grow]; omega
    simp only [if_pos hl']
    refine ⟨_, _, rfl, by simp [List.getElem?_eq_none (Nat.le_of_not_lt hl)], fun q => ?_⟩
    by_cases e : q = p
    · subst e; simp [hl', NodeSt.newKid]
    · simp only [if_neg e, List.getElem?_set, if_neg (Ne.symm e), NodeSt.grow]
      by_cases hq : q < s.slots.length
      · rw [List.getElem?_append_left hq]
      · rw [List.getElem?_append_right (by omega), List.getElem?_replicate,
          List.getElem?_eq_none (Nat.le_of_not_lt hq)]
        split <;> rfl

example : (NodeSt.mk 0 [none, some ⟨1, 5, some 0⟩] 2 : NodeSt Nat).replaceAt 4 1 9 =
    .ok (⟨0, [none, some ⟨2, 9, some 0⟩], 3⟩, some ⟨1, 5, none⟩) := by decide

/-! ### C49 frame and observers -/

theorem kidAt_grow (s : NodeSt α) (n q : Nat) : ((NodeSt.grow s.slots n)[q]?).join = (s.slots[q]?).join := by
  rw [NodeSt.grow]
  by_cases hq : q < s.slots.length
  · rw [List.getElem?_append_left hq]
  · rw [List.getElem?_append_right (by omega), List.getElem?_replicate, List.getElem?_eq_none (Nat.le_of_not_lt hq)]
    split <;> rfl

/-- C49: the slot operations change only the addressed slot (`delete_child` shifts later slots), and the observers read the
slots as documented (for vectors smaller than 2^64). -/
theorem C49_frame [DecidableEq α] (max : Nat) (s : NodeSt α) (p : Nat) (x : α) :
    -- insert_at
    ((s.insertAt max p x).2 = true ↔ p < max ∧ kidAt s p = none) ∧
    (∀ q, kidAt (s.insertAt max p x).1 q =
      if (s.insertAt max p x).2 = true ∧ q = p then some ⟨s.next, x, some s.self⟩ else kidAt s q) ∧
    -- extract_child
    ((s.extractChild p).2 = (kidAt s p).map (fun k => { k with parent := none })) ∧
    (∀ q, kidAt (s.extractChild p).1 q = if q = p then none else kidAt s q) ∧
    -- delete_child
    ((s.deleteChild p).2 = true ↔ p < s.slots.length) ∧
    (∀ q, kidAt (s.deleteChild p).1 q = if q < p then kidAt s q else
      if p < s.slots.length then kidAt s (q + 1) else kidAt s q) ∧
    -- find
    ((s.find x).1 = true ↔ ∃ q k, kidAt s q = some k ∧ k.val = x) ∧
    ((s.find x).1 = true → (∃ k, kidAt s (s.find x).2 = some k ∧ k.val = x) ∧
      ∀ q < (s.find x).2, ∀ k, kidAt s q = some k → k.val ≠ x) ∧
    ((s.find x).1 = false → (s.find x).2 = W - 1) ∧
    -- children_count, has_child, child
    s.childrenCount = kidCount s ∧
    (s.hasChild p = (kidAt s p).isSome) ∧
    (s.child p = match kidAt s p with
      | some k => .ok k
      | none => if p < s.slots.length then .exc .invalidNode else .exc .outOfRange) := by
  have hnone : ∀ q, ¬ q < s.slots.length → kidAt s q = none := by
    intro q hq; unfold kidAt; rw [List.getElem?_eq_none (Nat.le_of_not_lt hq)]; rfl
  refine ⟨?_, ?_, ?_, ?_, ?_, ?_, ?_, ?_, ?_, ?_, ?_, ?_⟩
  · unfold NodeSt.insertAt kidAt
    split
    · next hm =>
      split
      · next hl =>
        rw [List.getElem?_eq_getElem hl]
        cases hs : s.slots[p] <;> simp [hm]
      · next hl => simp [hm, List.getElem?_eq_none (Nat.le_of_not_lt hl)]
    · next hm => simp [hm]
  · intro q
    unfold NodeSt.insertAt
    split
    · next hm =>
      split
      · next hl =>
        split
        · next hp =>
          unfold kidAt
          by_cases e : q = p
          · subst e; simp [hl, NodeSt.newKid]
          · simp [e, Ne.symm e]
        · simp
      · next hl =>
        have hl' : p < (NodeSt.grow s.slots (p + 1)).length := by simp [NodeSt.grow]; omega
        unfold kidAt
        by_cases e : q = p
        · subst e; simp [hl', NodeSt.newKid]
        · simp only [e, and_false, if_false, List.getElem?_set, if_neg (Ne.symm e)]
          exact kidAt_grow s (p + 1) q
    · simp
  · unfold NodeSt.extractChild
    split
    · next hl =>
      unfold kidAt
      rw [List.getElem?_eq_getElem hl]
      cases hs : s.slots[p] <;> simp
    · next hl => rw [hnone p hl]; rfl
  · intro q
    unfold NodeSt.extractChild
    split
    · next hl =>
      have hg := List.getElem?_eq_getElem hl
      by_cases e : q = p
      · subst e
        rw [if_pos rfl]
        split
        · unfold kidAt; simp [hl]
        · next hx =>
          unfold kidAt
          rw [hg]
          cases hs : s.slots[q] with
          | none => rfl
          | some k => exact absurd (by rw [hg, hs]) (hx k)
      · rw [if_neg e]
        split
        · unfold kidAt; simp [Ne.symm e]
        · rfl
    · next hl =>
      by_cases e : q = p
      · subst e; rw [if_pos rfl, hnone q hl]
      · rw [if_neg e]
  · unfold NodeSt.deleteChild
    split <;> simp_all
  · intro q
    unfold NodeSt.deleteChild
    split
    · next hl =>
      unfold kidAt
      simp only [List.getElem?_eraseIdx]
      split <;> rfl
    · simp
  · unfold NodeSt.find
    simp only
    constructor
    · intro h
      split at h
      · next hl =>
        have hg := List.findIdx_getElem (w := hl)
        have e := List.getElem?_eq_getElem hl
        split at hg
        · next k hk => rw [hk] at e; exact ⟨_, k, congrArg Option.join e, by simpa using hg⟩
        · cases hg
      · cases h
    · rintro ⟨q, k, hq, hk⟩
      have hmem : some k ∈ s.slots := by
        unfold kidAt at hq
        cases hp : s.slots[q]? with
        | none => rw [hp] at hq; cases hq
        | some o =>
          rw [hp] at hq
          have : o = some k := hq
          subst this
          exact List.mem_of_getElem? hp
      rw [if_pos]
      rw [List.findIdx_lt_length]
      exact ⟨some k, hmem, by simp [hk]⟩
  · unfold NodeSt.find
    simp only
    intro h
    split at h
    · next hl =>
      rw [if_pos hl]
      have hg := List.findIdx_getElem (w := hl)
      constructor
      · unfold kidAt
        rw [List.getElem?_eq_getElem hl]
        split at hg
        · next k hk => exact ⟨k, by rw [hk]; rfl, by simpa using hg⟩
        · cases hg
      · intro q hq k hk he
        have := List.not_of_lt_findIdx hq
        unfold kidAt at hk
        have hql : q < s.slots.length := Nat.lt_trans hq hl
        rw [List.getElem?_eq_getElem hql] at hk
        have hk' : s.slots[q] = some k := hk
        rw [hk'] at this
        simp [he] at this
    · cases h
  · unfold NodeSt.find
    simp only
    intro h
    split at h
    · cases h
    · next hl => rw [if_neg hl]
  · unfold NodeSt.childrenCount kidCount
    generalize s.slots = l
    have : l.countP (fun o => o.isNone) + (l.filterMap id).length = l.length := by
      induction l with
      | nil => rfl
      | cons o l ih => cases o <;> simp <;> simp at ih <;> omega
    omega
  · unfold NodeSt.hasChild kidAt
    split
    · next h => rw [h]; rfl
    · next h =>
      cases hp : s.slots[p]? with
      | none => rfl
      | some o =>
        cases o with
        | none => rfl
        | some k => exact absurd hp (h k)
  · unfold NodeSt.child kidAt
    by_cases hl : p < s.slots.length
    · rw [List.getElem?_eq_getElem hl]
      cases hs : s.slots[p] <;> simp [hl]
    · rw [List.getElem?_eq_none (Nat.le_of_not_lt hl)]
      simp [hl]

/-- C49: `first`/`last` return the first/last child, and throw exactly when there is none. -/
theorem C49_first_last (s : NodeSt α) :
    (kidCount s = 0 → s.first = .exc .invalidNode ∧ s.last = .exc .invalidNode) ∧
    (∀ k l, s.slots.filterMap id = k :: l → s.first = .ok k) ∧
    (∀ k l, s.slots.filterMap id = l ++ [k] → s.last = .ok k) := by
  have key : ∀ l : List (Option (Kid α)), l.find? (fun o => o.isSome) =
      (match l.filterMap id with | [] => none | k :: _ => some (some k)) := by
    intro l
    induction l with
    | nil => rfl
    | cons o l ih => cases o <;> simp [ih]
  have first : s.first = match s.slots.filterMap id with | [] => .exc .invalidNode | k :: _ => .ok k := by
    unfold NodeSt.first; rw [key]; cases s.slots.filterMap id <;> rfl
  have last : s.last = match (s.slots.filterMap id).reverse with | [] => .exc .invalidNode | k :: _ => .ok k := by
    unfold NodeSt.last; rw [key, List.filterMap_reverse]; cases (s.slots.filterMap id).reverse <;> rfl
  refine ⟨fun h => ?_, fun k l h => by rw [first, h], fun k l h => by rw [last, h]; simp⟩
  have : s.slots.filterMap id = [] := List.length_eq_zero_iff.1 h
  rw [first, last, this]; exact ⟨rfl, rfl⟩

example : (NodeSt.mk 0 [none, some ⟨1, 5, some 0⟩, some ⟨2, 5, some 0⟩] 3 : NodeSt Nat).find 5 = (true, 1) ∧
    kidCount (NodeSt.mk 0 [none, some ⟨1, 5, some 0⟩, some ⟨2, 5, some 0⟩] 3 : NodeSt Nat) = 2 := by decide

/-! ### C50, C51 n-ary in_order -/

theorem inOrder_good (f : Callback (Node α)) (n : Node α) :
    (inOrder f n).1 = cut (inner f) [] (inorderN n) ∧
    (stops (inner f) [] (inorderN n) = false → (inOrder f n).2 = 1 + Spec.count n.2) := by
  have e : inOrder f n = ((inNode f n []).1, (inNode f n []).2.2) := by
    obtain ⟨v, k⟩ := n
    cases k <;> rfl
  rw [e]
  unfold inNode
  split
  · next e =>
    obtain ⟨v, k⟩ := n
    simp only at e
    subst e
    simp [inorderN, parts, between, cut, inner, Spec.count]
  · next hk e =>
    obtain ⟨i1, i2, i3⟩ := inLoop_eq f n.2 n (max (n.2.toList.length - 1) 1) [] e
    rw [← parts_length, rem_start _ _ (parts_ne_nil e)] at i1 i2 i3
    rw [← parts_length]
    exact ⟨i1, fun hs => by show 1 + _ = _; rw [i3 hs]⟩

/-- C50: with a callback that never stops, `in_order` visits a node without slots once, a node with one slot once after it,
and a node with k ≥ 2 slots between consecutive slots (k − 1 times), and returns the number of nodes. -/
theorem C50_in_order (f : Callback (Node α)) (hf : ∀ tr n, f tr n = false) (n : Node α) :
    inOrder f n = (inorderN n, 1 + Spec.count n.2) := by
  have hi : ∀ tr m, inner f tr m = false := by
    intro tr m; unfold inner; split
    · rfl
    · exact hf tr m
  obtain ⟨h1, h2⟩ := inOrder_good f n
  have hs := stops_never (inner f) hi (inorderN n) []
  rw [cut_of_not_stops _ _ _ hs] at h1
  exact Prod.ext h1 (h2 hs)

/-- How often the owner is visited by `between`, besides the visits inside the slots. -/
theorem C50_between_length (n : Node α) (ps : List (List (Node α))) :
    (between n ps).length = ps.flatten.length + max (ps.length - 1) 1 := by
  match ps with
  | [] => rfl
  | [p] => simp [between]
  | [p, q] => simp [between]; omega
  | p :: q :: q' :: ps =>
    have := C50_between_length n (q :: q' :: ps)
    simp only [between] at this ⊢
    simp at this ⊢
    omega

/-- Every node is visited. -/
theorem C50_all_visited (n : Node α) : ∀ m ∈ n :: preorder n.2, m ∈ inorderN n := by
  have owner : ∀ (n : Node α) ps, n ∈ between n ps := by
    intro n ps
    match ps with
    | [] => simp [between]
    | [p] => simp [between]
    | p :: q :: ps => simp [between]
  have sub : ∀ (n : Node α) (ps : List (List (Node α))) p, p ∈ ps → ∀ m ∈ p, m ∈ between n ps := by
    intro n ps
    induction ps with
    | nil => intro p hp; cases hp
    | cons a ps ih =>
      intro p hp m hm
      cases ps with
      | nil => simp at hp; subst hp; simp [between, hm]
      | cons b ps =>
        rcases List.mem_cons.1 hp with rfl | hp
        · simp [between, hm]
        · have := ih p hp m hm
          cases ps with
          | nil => simp at hp; subst hp; simp [between, hm]
          | cons c ps =>
            show m ∈ a ++ [n] ++ between n (b :: c :: ps)
            exact List.mem_append_right _ this
  have kids : ∀ (k : Slots α), ∀ m ∈ preorder k, ∃ p ∈ parts k, m ∈ p := by
    intro k
    induction k with
    | nil => intro m h; cases h
    | null r ih =>
      intro m h
      obtain ⟨p, h1, h2⟩ := ih m h
      exact ⟨p, List.mem_cons_of_mem _ h1, h2⟩
    | node v k r ihk ihr =>
      intro m h
      simp only [preorder, List.cons_append, List.mem_cons, List.mem_append] at h
      rcases h with rfl | h | h
      · exact ⟨_, List.mem_cons_self, owner _ _⟩
      · obtain ⟨p, h1, h2⟩ := ihk m h
        exact ⟨_, List.mem_cons_self, sub _ _ p h1 m h2⟩
      · obtain ⟨p, h1, h2⟩ := ihr m h
        exact ⟨p, List.mem_cons_of_mem _ h1, h2⟩
  intro m hm
  rcases List.mem_cons.1 hm with rfl | hm
  · exact owner _ _
  · obtain ⟨p, h1, h2⟩ := kids n.2 m hm
    exact sub _ _ p h1 m h2

example : ((inOrder (fun _ _ => false) exTree).1.map fun n => n.1) = [4, 1, 0, 0, 2, 5, 0, 3] ∧
    (inOrder (fun _ _ => false) exTree).2 = 6 := by decide

/-- C51 (full statement): a callback that returned true is not called again. -/
def C51_statement : Prop := ∀ (f : Callback (Node Nat)) (n : Node Nat), (inOrder f n).1 = cut f [] (inorderN n)

/-- C51 is false: the result on a node without slots is ignored. -/
theorem C51_counterexample : ¬ C51_statement := by
  intro h
  have := congrArg List.length (h (fun _ n => n.1 == 4) exTree)
  revert this
  decide

/-- C51 (part): the calls end with the first one that returns true on a node that has slots.
Missing: true results on nodes without slots, which are ignored (`C51_counterexample`). -/
theorem C51_stop_partial (f : Callback (Node α)) (n : Node α) :
    (inOrder f n).1 = cut (fun tr m => match m.2 with | .nil => false | _ => f tr m) [] (inorderN n) :=
  (inOrder_good f n).1

example : ((inOrder (fun _ n => n.1 == 2) exTree).1.map fun n => n.1) = [4, 1, 0, 0, 2] := by decide

/-! ### C52 copies of n-ary trees -/

/-- C52 (full statement): copying (into a new tree) and destroying both trees is fine. -/
def C52_statement : Prop :=
  ∀ (src : Owned) (fresh : Nat), (ownedIds src).Nodup → fresh ∉ ownedIds src →
    destroyAll [copyAssignN fresh none src, src] = .ok ()

/-- C52 is false for every tree with at least one child: the child nodes are shared and deleted twice. -/
theorem C52_counterexample_all (i : Nat) (k : Slots Nat) (fresh : Nat) (hk : slotIds k ≠ []) :
    destroyAll [copyAssignN fresh none (some (i, k)), some (i, k)] = .ub := by
  unfold destroyAll
  rw [if_neg]
  intro h
  simp only [copyAssignN, List.flatMap_cons, List.flatMap_nil, ownedIds, List.append_nil] at h
  cases hs : slotIds k with
  | nil => exact hk hs
  | cons j js =>
    rw [hs] at h
    have := (List.nodup_append.1 h).2.2 j (by simp) j (by simp)
    exact this rfl

theorem C52_counterexample : ¬ C52_statement := by
  intro h
  have := h (some (0, .node 1 .nil .nil)) 2 (by decide) (by decide)
  rw [C52_counterexample_all 0 _ 2 (by decide)] at this
  cases this

/-- C52 (part): a root without children (or no root) is copied independently.  Missing: trees with children. -/
theorem C52_copy_partial (src : Owned) (fresh : Nat) (hs : (ownedIds src).length ≤ 1) (hf : fresh ∉ ownedIds src) :
    destroyAll [copyAssignN fresh none src, src] = .ok () := by
  unfold destroyAll
  rw [if_pos]
  cases src with
  | none => simp [copyAssignN, ownedIds]
  | some n =>
    obtain ⟨i, k⟩ := n
    simp only [ownedIds, List.length_cons] at hs
    have : slotIds k = [] := List.length_eq_zero_iff.1 (by omega)
    simp [copyAssignN, ownedIds, this] at hf ⊢
    exact hf

example : destroyAll [copyAssignN 2 none (some (0, .null .nil)), some (0, .null .nil)] = .ok () := by decide

/-! ### C53 copy assignment of trees -/

/-- C53 (full statement): after `a = b` the target has the nodes of the source and the old nodes are released. -/
def C53_statement : Prop :=
  ∀ (d : Nat) (self : Bool) (dst src : Avl.Tree Nat) (next : Nat), (self = true → dst = src) →
    Avl.Spec.SameShape src (treeCopyAssign d self dst src next).1 ∧
    (treeCopyAssign d self dst src next).2.2 = []

/-- C53 is false: assigning an empty tree keeps the old nodes. -/
theorem C53_counterexample : ¬ C53_statement := by
  intro h
  have := (h 0 false exBin .nil 9 (by simp)).1
  simp only [treeCopyAssign, exBin] at this
  cases this

/-- Self assignment replaces the whole tree by one default node. -/
theorem C53_counterexample_self (d : α) (i p v h) (l r : Avl.Tree α) (next : Nat) :
    (treeCopyAssign d true (.node i p v h l r) (.node i p v h l r) next).1 = .node next none d 1 .nil .nil := rfl

/-- The old nodes are never released. -/
theorem C53_counterexample_leak (d : Nat) : (treeCopyAssign d false exBin exBin 9).2.2 = [exBin] := rfl

/-- C53 (part): assignment from another, non-empty tree gives the values and shape of the source, a root without parent and
right parent links.  Missing: empty source, self assignment, and releasing the old nodes. -/
theorem C53_assign_partial (d : α) (dst src : Avl.Tree α) (next : Nat) (hne : src ≠ .nil) :
    Avl.Spec.SameShape src (treeCopyAssign d false dst src next).1 ∧
    Avl.Spec.inorder (treeCopyAssign d false dst src next).1 = Avl.Spec.inorder src ∧
    Avl.Spec.ParentsExact none (treeCopyAssign d false dst src next).1 := by
  have copy_spec : ∀ (t : Avl.Tree α) par next,
    Avl.Spec.inorder (t.copy par next).1 = Avl.Spec.inorder t ∧ Avl.Spec.SameShape t (t.copy par next).1 ∧
      Avl.Spec.ParentsExact par (t.copy par next).1 := by
    intro t
    induction t with
    | nil => intro par next; exact ⟨rfl, .nil, trivial⟩
    | node i p v h l r ihl ihr =>
      intro par next
      simp only [Avl.Tree.copy]
      obtain ⟨a1, a2, a3⟩ := ihl (some next) (next + 1)
      obtain ⟨b1, b2, b3⟩ := ihr (some next) (l.copy (some next) (next + 1)).2
      exact ⟨by simp only [Avl.Spec.inorder, a1, b1], .node a2 b2, rfl, a3, b3⟩
  cases src with
  | nil => exact absurd rfl hne
  | node i p v h l r =>
    obtain ⟨k1, k2, k3⟩ := copy_spec (.node i p v h l r) none next
    exact ⟨k2, k1, k3⟩

example : exBin ≠ .nil ∧ Avl.Spec.inorder (treeCopyAssign 0 false .nil exBin 9).1 = [1, 2, 3, 4, 5] := by decide

/-! ### C54 binary_node_t assignment -/

/-- C54 (full statement): copy assignment gives the target the value and a deep copy of the children of the source, whatever
the source; move assignment likewise transfers them. -/
def C54_statement : Prop :=
  ∀ (rel : Rel) (i p v h) (l r : Avl.Tree Nat) (i' p' v' h') (l' r' : Avl.Tree Nat) (next : Nat),
    (rel = .self → (Avl.Tree.node i p v h l r) = .node i' p' v' h' l' r') →
    ∃ t n, nodeCopyAssign rel (.node i p v h l r) (.node i' p' v' h' l' r') next = .ok (t, n) ∧
      Avl.Spec.SameShape (.node i' p' v' h' l' r') t

/-- C54 is false: self assignment drops the children (and a source below the target is read after it was freed). -/
theorem C54_counterexample : ¬ C54_statement := by
  intro h
  obtain ⟨t, n, h1, h2⟩ := h .self 0 none 1 2 (.node 1 (some 0) 0 1 .nil .nil) .nil 0 none 1 2
    (.node 1 (some 0) 0 1 .nil .nil) .nil 5 (fun _ => rfl)
  simp only [nodeCopyAssign, Res.ok.injEq, Prod.mk.injEq] at h1
  rw [← h1.1] at h2
  cases h2 with
  | node a b => cases a

theorem C54_counterexample_below (dst src : Avl.Tree α) (next : Nat) :
    nodeCopyAssign .below dst src next = .ub := by
  unfold nodeCopyAssign
  split <;> rfl

/-- C54 (part): with a source outside the target's subtree, copy assignment deep-copies value and shape with right parent
links below the target, which keeps its own parent; move assignment transfers value and children, sets the children's parent
to the target and leaves the source without children and without parent.
Missing: self assignment and sources below the target (`C54_counterexample`, `C54_counterexample_below`). -/
theorem C54_node_assign_partial (mv : α) (i p v h) (l r : Avl.Tree α) (i' p' v' h') (l' r' : Avl.Tree α) (next : Nat) :
    (∃ t n, nodeCopyAssign .disjoint (.node i p v h l r) (.node i' p' v' h' l' r') next = .ok (t, n) ∧
      Avl.Spec.SameShape (.node i' p' v' h' l' r') t ∧ Avl.Spec.ParentsExact p t ∧
      ∃ l2 r2, t = .node i p v' h l2 r2) ∧
    (∃ t s, nodeMoveAssign .disjoint mv (.node i p v h l r) (.node i' p' v' h' l' r') = .ok (t, s) ∧
      Avl.Spec.SameShape (.node i' p' v' h' l' r') t ∧ s = .node i' none mv h' .nil .nil ∧
      (Avl.Spec.ParentsExact p' (.node i' p' v' h' l' r') → ∃ l2 r2, t = .node i p v' h l2 r2 ∧
        (∀ j q w g a b, l2 = .node j q w g a b → q = some i) ∧ (∀ j q w g a b, r2 = .node j q w g a b → q = some i))) := by
  have copy_spec : ∀ (t : Avl.Tree α) par next, Avl.Spec.SameShape t (t.copy par next).1 ∧
      Avl.Spec.ParentsExact par (t.copy par next).1 := by
    intro t
    induction t with
    | nil => intro par next; exact ⟨.nil, trivial⟩
    | node i p v h l r ihl ihr =>
      intro par next
      simp only [Avl.Tree.copy]
      obtain ⟨a2, a3⟩ := ihl (some next) (next + 1)
      obtain ⟨b2, b3⟩ := ihr (some next) (l.copy (some next) (next + 1)).2
      exact ⟨.node a2 b2, rfl, a3, b3⟩
  have refl : ∀ (t : Avl.Tree α), Avl.Spec.SameShape t t := by
    intro t
    induction t with
    | nil => exact .nil
    | node i p v h l r ihl ihr => exact .node ihl ihr
  have sp : ∀ (t : Avl.Tree α) q, Avl.Spec.SameShape t (t.setParent q) := by
    intro t q
    cases t with
    | nil => exact .nil
    | node i p v h l r => exact .node (refl l) (refl r)
  have sp' : ∀ (t : Avl.Tree α) q, ∀ j q' w g a b, t.setParent q = .node j q' w g a b → q' = q := by
    intro t q j q' w g a b e
    cases t with
    | nil => cases e
    | node i p v h l r => simp only [Avl.Tree.setParent, Avl.Tree.node.injEq] at e; exact e.2.1.symm
  obtain ⟨c1, c2⟩ := copy_spec l' (some i) next
  obtain ⟨d1, d2⟩ := copy_spec r' (some i) (l'.copy (some i) next).2
  exact ⟨⟨_, _, rfl, .node c1 d1, ⟨rfl, c2, d2⟩, _, _, rfl⟩,
    ⟨_, _, rfl, .node (sp l' _) (sp r' _), rfl, fun _ => ⟨_, _, rfl, sp' l' _, sp' r' _⟩⟩⟩

example : (nodeCopyAssign .disjoint exBin (.node 7 none 9 1 (.node 8 (some 7) 8 1 .nil .nil) .nil) 20) =
    .ok (.node 0 none 9 3 (.node 20 (some 0) 8 1 .nil .nil) .nil, 21) := by decide

end Verif.Nary
