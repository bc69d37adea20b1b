import Verif.Nary.Lemmas

/-!
C212: how many nodes wait in the containers of `depth_first_search` and `breadth_first_search` (`structures/tree.h`).

The loops of Model.lean with one more component: the greatest number of pointers the container has held so far.
-/

namespace Verif.Nary
open Spec
variable {α : Type}

/-- tree.h:1134-1152 (const: 1163-1181), see `dfsLoop`; `peak` is the greatest size of the stack so far. -/
def dfsPeak (f : Callback (Node α)) : List (Node α) → List (Node α) → Nat → Nat → List (Node α) × Nat × Nat
  | [], tr, visited, peak => (tr, visited, peak)
  | n :: st, tr, visited, peak =>
    let stop := f tr n
    let st' := (kidsOf n.2).reverse.foldl (fun st c => c :: st) st
    let peak := max peak st'.length
    if stop then (tr ++ [n], visited + 1, peak) else dfsPeak f st' (tr ++ [n]) (visited + 1) peak
termination_by st => work st
decreasing_by
  rw [foldl_push, List.reverse_reverse, work_append, work_kidsOf]
  show _ < n.2.size + 1 + work st
  omega

theorem foldl_enqueue (l q : List (Node α)) : l.foldl (fun q c => q ++ [c]) q = q ++ l := by
  induction l generalizing q with
  | nil => simp
  | cons x l ih => simp [ih]

/-- tree.h:1073-1090 (const: 1102-1119), see `bfsLoop`; `peak` is the greatest size of the queue so far. -/
def bfsPeak (f : Callback (Node α)) : List (Node α) → List (Node α) → Nat → Nat → List (Node α) × Nat × Nat
  | [], tr, visited, peak => (tr, visited, peak)
  | n :: q, tr, visited, peak =>
    let stop := f tr n
    let q' := (kidsOf n.2).foldl (fun q c => q ++ [c]) q
    let peak := max peak q'.length
    if stop then (tr ++ [n], visited + 1, peak) else bfsPeak f q' (tr ++ [n]) (visited + 1) peak
termination_by q => work q
decreasing_by
  rw [foldl_enqueue, work_append, work_kidsOf]
  show _ < n.2.size + 1 + work q
  omega

/-- The most nodes that ever wait in the stack of `depth_first_search` from `root`. -/
def dfsMost (f : Callback (Node α)) (root : Node α) : Nat := (dfsPeak f [root] [] 0 1).2.2

/-- The most nodes that ever wait in the queue of `breadth_first_search` from `root`. -/
def bfsMost (f : Callback (Node α)) (root : Node α) : Nat := (bfsPeak f [root] [] 0 1).2.2

/-! ### The meters change nothing -/

theorem dfsPeak_same (f : Callback (Node α)) : ∀ (w : Nat) (st tr : List (Node α)) (v p : Nat), work st ≤ w →
    ((dfsPeak f st tr v p).1, (dfsPeak f st tr v p).2.1) = dfsLoop f st tr v := by
  intro w
  induction w with
  | zero =>
    intro st tr v p h
    cases st with
    | nil => simp [dfsPeak, dfsLoop]
    | cons n st => obtain ⟨x, k⟩ := n; simp [work] at h
  | succ w ih =>
    intro st tr v p h
    cases st with
    | nil => simp [dfsPeak, dfsLoop]
    | cons n st =>
      rw [dfsPeak, dfsLoop]
      split
      · rfl
      · apply ih
        rw [foldl_push, List.reverse_reverse, work_append, work_kidsOf]
        obtain ⟨x, k⟩ := n
        simp only [work] at h
        simp only; omega

theorem bfsPeak_same (f : Callback (Node α)) : ∀ (w : Nat) (q tr : List (Node α)) (v p : Nat), work q ≤ w →
    ((bfsPeak f q tr v p).1, (bfsPeak f q tr v p).2.1) = bfsLoop f q tr v := by
  intro w
  induction w with
  | zero =>
    intro q tr v p h
    cases q with
    | nil => simp [bfsPeak, bfsLoop]
    | cons n q => obtain ⟨x, k⟩ := n; simp [work] at h
  | succ w ih =>
    intro q tr v p h
    cases q with
    | nil => simp [bfsPeak, bfsLoop]
    | cons n q =>
      rw [bfsPeak, bfsLoop]
      split
      · rfl
      · apply ih
        rw [foldl_enqueue, work_append, work_kidsOf]
        obtain ⟨x, k⟩ := n
        simp only [work] at h
        simp only; omega

/-- C212: the loops with the meter do what the searches do. -/
theorem C212_same (f : Callback (Node α)) (root : Node α) :
    ((dfsPeak f [root] [] 0 1).1, (dfsPeak f [root] [] 0 1).2.1) = dfs f (some root) ∧
      ((bfsPeak f [root] [] 0 1).1, (bfsPeak f [root] [] 0 1).2.1) = bfs f (some root) :=
  ⟨dfsPeak_same f _ _ _ _ _ (Nat.le_refl _), bfsPeak_same f _ _ _ _ _ (Nat.le_refl _)⟩

/-! ### Depth first -/

/-- No node in the slots has more than `m` children. -/
def Narrow (m : Nat) : Slots α → Prop
  | .nil => True
  | .null r => Narrow m r
  | .node _ k r => (kidsOf k).length ≤ m ∧ Narrow m k ∧ Narrow m r

/-- Every node of the list, with the nodes below it on the stack and what its subtree may add, stays within `B`. -/
def Room (m B : Nat) : List (Node α) → Prop
  | [] => True
  | n :: st => st.length + 1 + (m - 1) * levels n.2 ≤ B ∧ ((kidsOf n.2).length ≤ m ∧ Narrow m n.2) ∧ Room m B st

theorem narrow_kids {m : Nat} {k : Slots α} (h : Narrow m k) : ∀ n ∈ kidsOf k, (kidsOf n.2).length ≤ m ∧ Narrow m n.2 := by
  induction k with
  | nil => intro n hn; cases hn
  | null r ih => exact ih h
  | node v k r _ ihr =>
    intro n hn
    rcases List.mem_cons.1 (show n ∈ (v, k) :: kidsOf r from hn) with rfl | hn
    · exact ⟨h.1, h.2.1⟩
    · exact ihr h.2.2 n hn

theorem levels_kids {k : Slots α} : ∀ n ∈ kidsOf k, levels n.2 + 1 ≤ levels k := by
  induction k with
  | nil => intro n hn; cases hn
  | null r ih => exact ih
  | node v k r _ ihr =>
    intro n hn
    simp only [levels]
    rcases List.mem_cons.1 (show n ∈ (v, k) :: kidsOf r from hn) with rfl | hn
    · simp only; omega
    · have := ihr n hn; omega

theorem room_length {m B : Nat} {st : List (Node α)} (h : Room m B st) : st.length ≤ B := by
  cases st with
  | nil => exact Nat.zero_le _
  | cons n st => have := h.1; simp only [List.length_cons]; omega

theorem room_push {m B : Nat} (hm : 1 ≤ m) {n : Node α} {st : List (Node α)} (h : Room m B (n :: st)) : Room m B (kidsOf n.2 ++ st) := by
  obtain ⟨h1, ⟨h2, h3⟩, h4⟩ := h
  have key : ∀ l : List (Node α), l.length ≤ m → (∀ c ∈ l, levels c.2 + 1 ≤ levels n.2) →
      (∀ c ∈ l, (kidsOf c.2).length ≤ m ∧ Narrow m c.2) → Room m B (l ++ st) := by
    intro l
    induction l with
    | nil => intro _ _ _; exact h4
    | cons c l ih =>
      intro g1 g2 g3
      refine ⟨?_, g3 c (by simp), ih (by simp at g1; omega) (fun d hd => g2 d (by simp [hd])) (fun d hd => g3 d (by simp [hd]))⟩
      have e1 := g2 c (by simp)
      have e2 : (m - 1) * (levels c.2 + 1) ≤ (m - 1) * levels n.2 := Nat.mul_le_mul_left _ e1
      rw [Nat.mul_succ] at e2
      simp only [List.length_cons] at g1
      show (l ++ st).length + 1 + (m - 1) * levels c.2 ≤ B
      rw [List.length_append]
      omega
  exact key _ h2 levels_kids (narrow_kids h3)

theorem dfsPeak_le (f : Callback (Node α)) {m B : Nat} (hm : 1 ≤ m) : ∀ (w : Nat) (st tr : List (Node α)) (v p : Nat), work st ≤ w →
    Room m B st → p ≤ B → (dfsPeak f st tr v p).2.2 ≤ B := by
  intro w
  induction w with
  | zero =>
    intro st tr v p h _ hp
    cases st with
    | nil => simpa [dfsPeak] using hp
    | cons n st => obtain ⟨x, k⟩ := n; simp [work] at h
  | succ w ih =>
    intro st tr v p h hr hp
    cases st with
    | nil => simpa [dfsPeak] using hp
    | cons n st =>
      have hr' := room_push hm hr
      have hl := room_length hr'
      rw [dfsPeak]
      simp only [foldl_push, List.reverse_reverse]
      split
      · simp only; omega
      · apply ih _ _ _ _ _ hr' (by omega)
        rw [work_append, work_kidsOf]
        obtain ⟨x, k⟩ := n
        simp only [work] at h
        simp only; omega

/-- **C212**, depth first: in a tree of `levels + 1` levels whose nodes have at most `m` children, at most `(m - 1) · levels + 1` nodes wait, whatever the
callback does. -/
theorem C212_depth_first (f : Callback (Node α)) {m : Nat} (hm : 1 ≤ m) (root : Node α) (h0 : (kidsOf root.2).length ≤ m) (h : Narrow m root.2) :
    dfsMost f root ≤ (m - 1) * levels root.2 + 1 := by
  refine dfsPeak_le f hm _ _ _ _ _ (Nat.le_refl _) ⟨?_, ⟨h0, h⟩, trivial⟩ (by omega)
  simp only [List.length_nil]; omega

/-- C212 for binary trees: never more nodes wait than the tree has levels. -/
theorem C212_binary (f : Callback (Node α)) (root : Node α) (h0 : (kidsOf root.2).length ≤ 2) (h : Narrow 2 root.2) :
    dfsMost f root ≤ levels root.2 + 1 := by
  have := C212_depth_first f (by omega) root h0 h
  omega

/-! ### Breadth first -/

theorem atDepthL_next (d : Nat) : ∀ q : List (Node α), atDepthL q (d + 1) = (atDepthL q d).flatMap fun n => kidsOf n.2 := by
  induction d with
  | zero => intro q; rw [atDepthL_succ]; rfl
  | succ d ih => intro q; rw [atDepthL_succ, ih, ← atDepthL_succ]

theorem bfsPeak_le (f : Callback (Node α)) (q0 : List (Node α)) {B : Nat} (hB : ∀ d, (atDepthL q0 d).length + (atDepthL q0 (d + 1)).length ≤ B) :
    ∀ (w : Nat) (before rest : List (Node α)) (d : Nat) (tr : List (Node α)) (v p : Nat),
    work (rest ++ before.flatMap fun n => kidsOf n.2) ≤ w → before ++ rest = atDepthL q0 d → p ≤ B →
    (bfsPeak f (rest ++ before.flatMap fun n => kidsOf n.2) tr v p).2.2 ≤ B := by
  intro w
  induction w with
  | zero =>
    intro before rest d tr v p h _ hp
    generalize (rest ++ before.flatMap fun n => kidsOf n.2) = q at h
    cases q with
    | nil => simpa [bfsPeak] using hp
    | cons n q => obtain ⟨x, k⟩ := n; simp [work] at h
  | succ w ih =>
    have step : ∀ (before rest : List (Node α)) (n : Node α) (d : Nat) (tr : List (Node α)) (v p : Nat),
        work ((n :: rest) ++ before.flatMap fun n => kidsOf n.2) ≤ w + 1 → before ++ n :: rest = atDepthL q0 d → p ≤ B →
        (bfsPeak f ((n :: rest) ++ before.flatMap fun n => kidsOf n.2) tr v p).2.2 ≤ B := by
      intro before rest n d tr v p h he hp
      have e : (rest ++ before.flatMap fun n => kidsOf n.2) ++ kidsOf n.2 = rest ++ (before ++ [n]).flatMap fun n => kidsOf n.2 := by simp
      have hl : (rest ++ (before ++ [n]).flatMap fun n => kidsOf n.2).length ≤ B := by
        have h1 := hB d
        rw [atDepthL_next, ← he] at h1
        simp only [List.length_append, List.flatMap_append, List.flatMap_cons, List.length_cons, List.flatMap_nil, List.length_nil] at h1 ⊢
        omega
      rw [List.cons_append, bfsPeak]
      simp only [foldl_enqueue, e]
      split
      · simp only; omega
      · refine ih (before ++ [n]) rest d _ _ _ ?_ (by simpa using he) (by omega)
        rw [← e, work_append, work_kidsOf]
        obtain ⟨x, k⟩ := n
        simp only [List.cons_append, work] at h
        simp only; omega
    intro before rest d tr v p h he hp
    cases rest with
    | cons n rest => exact step before rest n d tr v p h he hp
    | nil =>
      rw [List.append_nil] at he
      rw [List.nil_append, he, ← atDepthL_next] at h ⊢
      cases hq : atDepthL q0 (d + 1) with
      | nil => simpa [bfsPeak] using hp
      | cons n rest =>
        rw [hq] at h
        have := step [] rest n (d + 1) tr v p (by simpa using h) (by simpa using hq.symm) hp
        simpa using this

/-- **C212**, breadth first: never more nodes wait than two neighbouring levels have, whatever the callback does. -/
theorem C212_breadth_first (f : Callback (Node α)) (root : Node α) (B : Nat)
    (hB : ∀ d, (atDepth (.node root.1 root.2 .nil) d).length + (atDepth (.node root.1 root.2 .nil) (d + 1)).length ≤ B) :
    bfsMost f root ≤ B := by
  have h : ∀ d, (atDepthL [root] d).length + (atDepthL [root] (d + 1)).length ≤ B := by
    intro d
    have := hB d
    rw [atDepth_eq, atDepth_eq] at this
    exact this
  have h1 := bfsPeak_le f [root] h _ [] [root] 0 [] 0 1 (Nat.le_refl _) rfl (by
    have := h 0
    simp only [show atDepthL [root] 0 = [root] from rfl, List.length_cons, List.length_nil] at this
    omega)
  unfold bfsMost
  simpa using h1

/-! ### The bound for depth first search is reached -/

/-- `m` slots with the same child. -/
def rowOf (m : Nat) (k : Slots Nat) : Slots Nat := (List.range m).foldr (fun i r => .node i k r) .nil

/-- The full tree with `m` children per node and `d` levels below the root. -/
def fullTree (m : Nat) : Nat → Slots Nat
  | 0 => .nil
  | d + 1 => rowOf m (fullTree m d)

theorem kidsOf_rowOf (m : Nat) (k : Slots Nat) : kidsOf (rowOf m k) = (List.range m).map fun i => (i, k) := by
  unfold rowOf
  generalize List.range m = l
  induction l with
  | nil => rfl
  | cons i l ih => rw [List.foldr_cons, List.map_cons, ← ih]; rfl

theorem dfsPeak_ge (f : Callback (Node α)) : ∀ (w : Nat) (st tr : List (Node α)) (v p : Nat), work st ≤ w →
    p ≤ (dfsPeak f st tr v p).2.2 := by
  intro w
  induction w with
  | zero =>
    intro st tr v p h
    cases st with
    | nil => simp [dfsPeak]
    | cons n st => obtain ⟨x, k⟩ := n; simp [work] at h
  | succ w ih =>
    intro st tr v p h
    cases st with
    | nil => simp [dfsPeak]
    | cons n st =>
      rw [dfsPeak]
      split
      · simp only; omega
      · refine Nat.le_trans (Nat.le_max_left p _) (ih _ _ _ _ ?_)
        rw [foldl_push, List.reverse_reverse, work_append, work_kidsOf]
        obtain ⟨x, k⟩ := n
        simp only [work] at h
        simp only; omega

theorem dfsPeak_full (f : Callback (Node Nat)) (hf : ∀ b n, f b n = false) {m : Nat} (hm : 1 ≤ m) (d : Nat) :
    ∀ (x : Nat) (st tr : List (Node Nat)) (v p : Nat), st.length + 1 ≤ p →
      st.length + 1 + (m - 1) * d ≤ (dfsPeak f ((x, fullTree m d) :: st) tr v p).2.2 := by
  induction d with
  | zero =>
    intro x st tr v p hp
    refine Nat.le_trans ?_ (dfsPeak_ge f _ _ _ _ _ (Nat.le_refl _))
    omega
  | succ d ih =>
    intro x st tr v p hp
    rw [dfsPeak]
    simp only [hf, Bool.false_eq_true, if_false, foldl_push, List.reverse_reverse, fullTree, kidsOf_rowOf]
    obtain ⟨g, rfl⟩ : ∃ g, m = g + 1 := ⟨m - 1, by omega⟩
    rw [List.range_succ_eq_map, List.map_cons, List.cons_append]
    refine Nat.le_trans ?_ (ih 0 _ _ _ _ ?_)
    · simp only [List.length_append, List.length_map, List.length_range, Nat.add_sub_cancel, Nat.mul_succ]
      omega
    · simp only [List.length_cons]; omega

theorem levels_full {m : Nat} (hm : 1 ≤ m) (d : Nat) : levels (fullTree m d) = d := by
  have row : ∀ (l : List Nat) (k : Slots Nat), l ≠ [] → levels (l.foldr (fun i r => Slots.node i k r) .nil) = levels k + 1 := by
    intro l k
    induction l with
    | nil => intro h; exact absurd rfl h
    | cons i l ih =>
      intro _
      rw [List.foldr_cons, levels]
      by_cases hl : l = []
      · subst hl; simp [levels]
      · rw [ih hl]; omega
  induction d with
  | zero => rfl
  | succ d ih =>
    rw [fullTree, rowOf, row _ _ (by intro h; have := congrArg List.length h; simp at this; omega), ih]

theorem narrow_full (m d : Nat) : Narrow m (fullTree m d) := by
  have row : ∀ (l : List Nat) (k : Slots Nat), (kidsOf k).length ≤ m → Narrow m k → Narrow m (l.foldr (fun i r => Slots.node i k r) .nil) := by
    intro l k h1 h2
    induction l with
    | nil => trivial
    | cons i l ih => exact ⟨h1, h2, ih⟩
  induction d with
  | zero => trivial
  | succ d ih =>
    refine row _ _ ?_ ih
    cases d with
    | zero => exact Nat.zero_le _
    | succ d => rw [fullTree, kidsOf_rowOf]; simp

/-- **C212**, exactly: a full tree needs all of it. -/
theorem C212_exact (f : Callback (Node Nat)) (hf : ∀ b n, f b n = false) {m : Nat} (hm : 1 ≤ m) (d : Nat) :
    levels (fullTree m d) = d ∧ dfsMost f (0, fullTree m d) = (m - 1) * d + 1 := by
  refine ⟨levels_full hm d, Nat.le_antisymm ?_ ?_⟩
  · have := C212_depth_first f hm (0, fullTree m d) (by
      cases d with
      | zero => exact Nat.zero_le _
      | succ d => simp only [fullTree]; rw [kidsOf_rowOf]; simp) (narrow_full m d)
    rwa [levels_full hm d] at this
  · have := dfsPeak_full f hf hm d 0 [] [] 0 1 (by simp)
    simp only [List.length_nil] at this
    unfold dfsMost
    omega

/-! ### Leaves and levels -/

/-- The number of nodes without children among the slots and below. -/
def leaves : Slots α → Nat
  | .nil => 0
  | .null r => leaves r
  | .node _ k r => (if (kidsOf k).isEmpty then 1 else leaves k) + leaves r

/-- The leaves of the trees of a list. -/
def leavesL : List (Node α) → Nat
  | [] => 0
  | n :: q => (if (kidsOf n.2).isEmpty then 1 else leaves n.2) + leavesL q

theorem leavesL_append (p q : List (Node α)) : leavesL (p ++ q) = leavesL p + leavesL q := by
  induction p with
  | nil => simp [leavesL]
  | cons n p ih => simp only [List.cons_append, leavesL, ih]; omega

theorem leavesL_kids (k : Slots α) : leavesL (kidsOf k) = leaves k := by
  induction k with
  | nil => rfl
  | null r ih => exact ih
  | node v k r _ ihr =>
    show leavesL ((v, k) :: kidsOf r) = _
    rw [leavesL, leaves, ihr]

theorem kids_le_leaves (k : Slots α) : (kidsOf k).length ≤ leaves k := by
  induction k with
  | nil => exact Nat.le_refl _
  | null r ih => exact ih
  | node v k r ihk ihr =>
    show ((v, k) :: kidsOf r).length ≤ _
    rw [leaves, List.length_cons]
    split
    · omega
    · next h =>
      have : 0 < (kidsOf k).length := List.length_pos_iff.2 fun e => h (by rw [e]; rfl)
      omega

theorem length_le_leavesL (q : List (Node α)) : q.length ≤ leavesL q := by
  induction q with
  | nil => exact Nat.le_refl _
  | cons n q ih =>
    rw [leavesL, List.length_cons]
    split
    · omega
    · next h =>
      have := kids_le_leaves n.2
      have : 0 < (kidsOf n.2).length := List.length_pos_iff.2 fun e => h (by rw [e]; rfl)
      omega

theorem leaves_step (n : Node α) : leaves n.2 ≤ if (kidsOf n.2).isEmpty then 1 else leaves n.2 := by
  split
  · next h =>
    rw [← leavesL_kids, List.isEmpty_iff.1 h]
    exact Nat.zero_le _
  · exact Nat.le_refl _

theorem dfsPeak_leaves (f : Callback (Node α)) {B : Nat} : ∀ (w : Nat) (st tr : List (Node α)) (v p : Nat), work st ≤ w →
    leavesL st ≤ B → p ≤ B → (dfsPeak f st tr v p).2.2 ≤ B := by
  intro w
  induction w with
  | zero =>
    intro st tr v p h _ hp
    cases st with
    | nil => simpa [dfsPeak] using hp
    | cons n st => obtain ⟨x, k⟩ := n; simp [work] at h
  | succ w ih =>
    intro st tr v p h hr hp
    cases st with
    | nil => simpa [dfsPeak] using hp
    | cons n st =>
      have hr' : leavesL (kidsOf n.2 ++ st) ≤ B := by
        rw [leavesL] at hr
        rw [leavesL_append, leavesL_kids]
        have := leaves_step n
        omega
      have hl := Nat.le_trans (length_le_leavesL _) hr'
      rw [dfsPeak]
      simp only [foldl_push, List.reverse_reverse]
      split
      · simp only; omega
      · apply ih _ _ _ _ _ hr' (by omega)
        rw [work_append, work_kidsOf]
        obtain ⟨x, k⟩ := n
        simp only [work] at h
        simp only; omega

theorem bfsPeak_leaves (f : Callback (Node α)) {B : Nat} : ∀ (w : Nat) (q tr : List (Node α)) (v p : Nat), work q ≤ w →
    leavesL q ≤ B → p ≤ B → (bfsPeak f q tr v p).2.2 ≤ B := by
  intro w
  induction w with
  | zero =>
    intro q tr v p h _ hp
    cases q with
    | nil => simpa [bfsPeak] using hp
    | cons n q => obtain ⟨x, k⟩ := n; simp [work] at h
  | succ w ih =>
    intro q tr v p h hr hp
    cases q with
    | nil => simpa [bfsPeak] using hp
    | cons n q =>
      have hr' : leavesL (q ++ kidsOf n.2) ≤ B := by
        rw [leavesL] at hr
        rw [leavesL_append, leavesL_kids]
        have := leaves_step n
        omega
      have hl := Nat.le_trans (length_le_leavesL _) hr'
      rw [bfsPeak]
      simp only [foldl_enqueue]
      split
      · simp only; omega
      · apply ih _ _ _ _ _ hr' (by omega)
        rw [work_append, work_kidsOf]
        obtain ⟨x, k⟩ := n
        simp only [work] at h
        simp only; omega

/-- C212: neither search ever lets more nodes wait than the tree has leaves. -/
theorem C212_leaves (f : Callback (Node α)) (root : Node α) :
    dfsMost f root ≤ leaves (.node root.1 root.2 .nil) ∧ bfsMost f root ≤ leaves (.node root.1 root.2 .nil) := by
  have h : leavesL [root] = leaves (.node root.1 root.2 .nil) := rfl
  have h1 := length_le_leavesL [root]
  rw [← h]
  exact ⟨dfsPeak_leaves f _ _ _ _ _ (Nat.le_refl _) (Nat.le_refl _) h1, bfsPeak_leaves f _ _ _ _ _ (Nat.le_refl _) (Nat.le_refl _) h1⟩

theorem bfsPeak_ge (f : Callback (Node α)) : ∀ (w : Nat) (q tr : List (Node α)) (v p : Nat), work q ≤ w →
    p ≤ (bfsPeak f q tr v p).2.2 := by
  intro w
  induction w with
  | zero =>
    intro q tr v p h
    cases q with
    | nil => simp [bfsPeak]
    | cons n q => obtain ⟨x, k⟩ := n; simp [work] at h
  | succ w ih =>
    intro q tr v p h
    cases q with
    | nil => simp [bfsPeak]
    | cons n q =>
      rw [bfsPeak]
      split
      · simp only; omega
      · refine Nat.le_trans (Nat.le_max_left p _) (ih _ _ _ _ ?_)
        rw [foldl_enqueue, work_append, work_kidsOf]
        obtain ⟨x, k⟩ := n
        simp only [work] at h
        simp only; omega

/-- A search that does not stop replaces a level by the next one. -/
theorem bfsPeak_level (f : Callback (Node α)) (hf : ∀ b n, f b n = false) (rest : List (Node α)) :
    ∀ (next tr : List (Node α)) (v p : Nat), ∃ tr' v' p', bfsPeak f (rest ++ next) tr v p =
      bfsPeak f (next ++ rest.flatMap fun n => kidsOf n.2) tr' v' p' ∧
      (rest ≠ [] → (next ++ rest.flatMap fun n => kidsOf n.2).length ≤ p') := by
  induction rest with
  | nil => intro next tr v p; exact ⟨tr, v, p, by simp, fun h => absurd rfl h⟩
  | cons n rest ih =>
    intro next tr v p
    obtain ⟨tr', v', p', e, h⟩ := ih (next ++ kidsOf n.2) (tr ++ [n]) (v + 1) (max p (rest ++ next ++ kidsOf n.2).length)
    have e0 : bfsPeak f (n :: rest ++ next) tr v p =
        bfsPeak f (rest ++ (next ++ kidsOf n.2)) (tr ++ [n]) (v + 1) (max p (rest ++ next ++ kidsOf n.2).length) := by
      rw [List.cons_append, bfsPeak]
      simp only [hf, Bool.false_eq_true, if_false, foldl_enqueue, List.append_assoc]
    by_cases hr : rest = []
    · subst hr
      exact ⟨tr ++ [n], v + 1, max p (next ++ kidsOf n.2).length, by rw [e0]; simp, fun _ => by simp; omega⟩
    · refine ⟨tr', v', p', by rw [e0, e]; simp, fun _ => ?_⟩
      have := h hr
      simpa using this

theorem bfsPeak_reaches (f : Callback (Node α)) (hf : ∀ b n, f b n = false) (root : Node α) (d : Nat) :
    ∃ tr v p, bfsPeak f [root] [] 0 1 = bfsPeak f (atDepthL [root] d) tr v p ∧ (atDepthL [root] d).length ≤ p := by
  induction d with
  | zero => exact ⟨[], 0, 1, rfl, Nat.le_refl _⟩
  | succ d ih =>
    obtain ⟨tr, v, p, e, h⟩ := ih
    obtain ⟨tr', v', p', e', h'⟩ := bfsPeak_level f hf (atDepthL [root] d) [] tr v p
    rw [List.append_nil, List.nil_append, ← atDepthL_next] at e'
    rw [List.nil_append, ← atDepthL_next] at h'
    refine ⟨tr', v', p', e.trans e', ?_⟩
    by_cases hl : atDepthL [root] d = []
    · rw [atDepthL_next, hl]; exact Nat.zero_le _
    · exact h' hl

/-- C212: a breadth first search that does not stop lets every level wait as a whole, so the queue needs room for the widest level. -/
theorem C212_widest (f : Callback (Node α)) (hf : ∀ b n, f b n = false) (root : Node α) (d : Nat) :
    (atDepth (.node root.1 root.2 .nil) d).length ≤ bfsMost f root := by
  obtain ⟨tr, v, p, e, h⟩ := bfsPeak_reaches f hf root d
  rw [atDepth_eq]
  unfold bfsMost
  rw [e]
  exact Nat.le_trans h (bfsPeak_ge f _ _ _ _ _ (Nat.le_refl _))

/-- C212: if all leaves are on one level, a breadth first search that does not stop needs room for exactly the leaves. -/
theorem C212_even (f : Callback (Node α)) (hf : ∀ b n, f b n = false) (root : Node α) (d : Nat)
    (hd : (atDepth (.node root.1 root.2 .nil) d).length = leaves (.node root.1 root.2 .nil)) :
    bfsMost f root = leaves (.node root.1 root.2 .nil) :=
  Nat.le_antisymm (C212_leaves f root).2 (hd ▸ C212_widest f hf root d)

/-- 27 leaves: all wait in the queue, 7 nodes in the stack. -/
example : leaves (.node 0 (fullTree 3 3) .nil) = 27 := by decide +kernel
example : bfsMost (fun _ _ => false) (0, fullTree 3 3) = 27 :=
  C212_even _ (fun _ _ => rfl) (0, fullTree 3 3) 3 (by decide +kernel)

/-- Three levels below the root, three children each: 7 nodes wait in the stack.  Two levels, two children each: 4 nodes wait in the queue. -/
example : dfsMost (fun _ _ => false) (0, fullTree 3 3) = 7 := by
  have := (C212_exact (fun _ _ => false) (fun _ _ => rfl) (show 1 ≤ 3 by omega) 3).2
  exact this
example : (bfsPeak (fun _ _ => false) [((0 : Nat), fullTree 2 2)] [] 0 1).2 = (7, 4) := by
  simp [bfsPeak, fullTree, rowOf, kidsOf, Slots.toList, List.range_succ]
example : (atDepth (.node 0 (fullTree 2 2) .nil) 1).length + (atDepth (.node 0 (fullTree 2 2) .nil) 2).length = 6 := by decide +kernel

end Verif.Nary
