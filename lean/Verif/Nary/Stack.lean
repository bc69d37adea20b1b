import Verif.Nary.Model

/-!
C210: the stack that the recursive functions of `structures/tree.h` need.

Every function below has the number of nested calls of it that the stack has room for as an argument; a call without room is undefined behaviour
(`Res.ub`, stack overflow).  The functions over slots run inside the call on the node that has the slots: their number is the room left for calls on the
children.  The calls between two levels (`clear` between two destructors) belong to the level they are called from, and the callback needs no stack.
`breadth_first_search` and `depth_first_search` are loops (`bfsLoop`, `dfsLoop` in Model.lean).
-/

namespace Verif.Nary
variable {α : Type}

/-- The number of levels of nodes in the slots. -/
def Slots.levels : Slots α → Nat
  | .nil => 0
  | .null r => r.levels
  | .node _ k r => max (k.levels + 1) r.levels

/-- The number of nodes on the longest path from the node down. -/
def levels (n : Node α) : Nat := n.2.levels + 1

/-- tree.h:294-296, 459-464 `~tree_node_t`, `clear`. -/
def destroySlotsS : Nat → Slots α → Res Unit
  | _, .nil => .ok ()
  | K, .null r => destroySlotsS K r
  | 0, .node .. => .ub
  | K + 1, .node _ k r => do
    destroySlotsS K k
    destroySlotsS (K + 1) r

/-- tree.h:294-296 `~tree_node_t`; also `tree_t::clear` and `~tree_t` (l.881-883, 1183-1188). -/
def destroyS : Nat → Node α → Res Unit
  | 0, _ => .ub
  | K + 1, n => destroySlotsS K n.2

/-- tree.h:737-748 `pre_order`, the part over the slots (see `preSlots`). -/
def preSlotsS (f : Callback (Node α)) : Nat → Slots α → List (Node α) → Res (List (Node α) × Nat)
  | _, .nil, tr => .ok (tr, 0)
  | K, .null r, tr => preSlotsS f K r tr
  | 0, .node .., _ => .ub
  | K + 1, .node v k r, tr => do
    let stop := f tr (v, k)
    let (tr, n1) ← if stop then .ok (tr ++ [(v, k)], 0) else preSlotsS f K k (tr ++ [(v, k)])
    let (tr, n2) ← preSlotsS f (K + 1) r tr
    .ok (tr, 1 + n1 + n2)

/-- tree.h:737-748 `pre_order`. -/
def preOrderS (f : Callback (Node α)) (K : Nat) (n : Node α) : Res (List (Node α) × Nat) :=
  preSlotsS f K (.node n.1 n.2 .nil) []

/-- tree.h:756-766 `pos_order`, over the slots (see `posSlots`). -/
def posSlotsS : Nat → Slots α → List (Node α) → Res (List (Node α) × Nat)
  | _, .nil, tr => .ok (tr, 0)
  | K, .null r, tr => posSlotsS K r tr
  | 0, .node .., _ => .ub
  | K + 1, .node v k r, tr => do
    let (tr, n1) ← posSlotsS K k tr
    let (tr, n2) ← posSlotsS (K + 1) r (tr ++ [(v, k)])
    .ok (tr, 1 + n1 + n2)

/-- tree.h:756-766 `pos_order`. -/
def posOrderS (K : Nat) (n : Node α) : Res (List (Node α) × Nat) := posSlotsS K (.node n.1 n.2 .nil) []

/-- tree.h:702-729 `in_order`, the `for` loop over the slots of `owner` (see `inLoop`). -/
def inLoopS (f : Callback (Node α)) : Nat → Node α → Slots α → Nat → List (Node α) → Bool → Res (List (Node α) × Bool × Nat)
  | _, _, .nil, _, tr, brk => .ok (tr, brk, 0)
  | K, owner, .null r, calls, tr, brk =>
    if calls ≠ 0 then
      if f tr owner then .ok (tr ++ [owner], true, 0)
      else inLoopS f K owner r (dec calls) (tr ++ [owner]) false
    else inLoopS f K owner r (dec calls) tr brk
  | 0, _, .node .., _, _, _ => .ub
  | K + 1, owner, .node v k r, calls, tr, _ =>
    -- ptr->in_order(func)
    (if k.toList = [] then .ok (tr ++ [(v, k)], false, 1)
      else inLoopS f K (v, k) k (max (k.toList.length - 1) 1) tr false >>= fun y => .ok (y.1, y.2.1, 1 + y.2.2)) >>= fun x =>
    if x.2.1 then .ok (x.1, true, x.2.2)
    else if calls ≠ 0 then
      if f x.1 owner then .ok (x.1 ++ [owner], true, x.2.2)
      else inLoopS f (K + 1) owner r (dec calls) (x.1 ++ [owner]) false >>= fun y => .ok (y.1, y.2.1, x.2.2 + y.2.2)
    else inLoopS f (K + 1) owner r (dec calls) x.1 x.2.1 >>= fun y => .ok (y.1, y.2.1, x.2.2 + y.2.2)

/-- tree.h:702-729 `in_order`. -/
def inOrderS (f : Callback (Node α)) : Nat → Node α → Res (List (Node α) × Nat)
  | 0, _ => .ub
  | K + 1, n =>
    match n.2 with
    | .nil => .ok ([n], 1)
    | k => do
      let (tr, _, m) ← inLoopS f K n k (max (k.toList.length - 1) 1) [] false
      .ok (tr, 1 + m)

/-! ### Destructors and `pos_order` -/

theorem levels_le {v : α} {k r : Slots α} {K : Nat} : (Slots.node v k r).levels ≤ K + 1 ↔ k.levels ≤ K ∧ r.levels ≤ K + 1 := by
  simp only [Slots.levels]; omega

theorem destroySlotsS_exact (s : Slots α) : ∀ K, destroySlotsS K s = if s.levels ≤ K then .ok () else .ub := by
  induction s with
  | nil => intro K; cases K <;> rfl
  | null r ih => intro K; cases K <;> exact ih _
  | node v k r ihk ihr =>
    intro K
    cases K with
    | zero => rw [if_neg (by simp only [Slots.levels]; omega)]; rfl
    | succ K =>
      simp only [destroySlotsS, ihk, ihr]
      by_cases h1 : k.levels ≤ K
      · by_cases h2 : r.levels ≤ K + 1
        · rw [if_pos h1, if_pos h2, if_pos (levels_le.2 ⟨h1, h2⟩)]; rfl
        · rw [if_pos h1, if_neg h2, if_neg (fun h => h2 (levels_le.1 h).2)]; rfl
      · rw [if_neg h1, if_neg (fun h => h1 (levels_le.1 h).1)]; rfl

theorem posSlotsS_exact (s : Slots α) : ∀ K tr, posSlotsS K s tr = if s.levels ≤ K then .ok (posSlots s tr) else .ub := by
  induction s with
  | nil => intro K tr; cases K <;> rfl
  | null r ih => intro K tr; cases K <;> exact ih _ _
  | node v k r ihk ihr =>
    intro K tr
    cases K with
    | zero => rw [if_neg (by simp only [Slots.levels]; omega)]; rfl
    | succ K =>
      simp only [posSlotsS, posSlots, ihk, ihr]
      by_cases h1 : k.levels ≤ K
      · rw [if_pos h1]
        simp only [Res.bind_ok]
        by_cases h2 : r.levels ≤ K + 1
        · rw [if_pos h2, if_pos (levels_le.2 ⟨h1, h2⟩)]; rfl
        · rw [if_neg h2, if_neg (fun h => h2 (levels_le.1 h).2)]; rfl
      · rw [if_neg h1, if_neg (fun h => h1 (levels_le.1 h).1)]; rfl

/-! ### `pre_order` -/

theorem preSlotsS_enough (f : Callback (Node α)) (s : Slots α) : ∀ K tr, s.levels ≤ K →
    preSlotsS f K s tr = .ok (preSlots f s tr) := by
  induction s with
  | nil => intro K tr _; cases K <;> rfl
  | null r ih =>
    intro K tr h
    simp only [Slots.levels] at h
    have := ih K tr h
    cases K <;> simpa only [preSlotsS, preSlots] using this
  | node v k r ihk ihr =>
    intro K tr h
    simp only [Slots.levels] at h
    obtain ⟨g, rfl⟩ : ∃ g, K = g + 1 := ⟨K - 1, by omega⟩
    simp only [preSlotsS, preSlots]
    rw [ihk g _ (by omega)]
    cases f tr (v, k) with
    | true =>
      simp only [if_true, Res.bind_ok]
      rw [ihr _ _ (by omega)]; rfl
    | false =>
      simp only [Bool.false_eq_true, if_false, Res.bind_ok]
      rw [ihr _ _ (by omega)]; rfl

theorem preSlotsS_short (f : Callback (Node α)) (hf : ∀ b n, f b n = false) (s : Slots α) : ∀ K tr, K < s.levels →
    preSlotsS f K s tr = .ub := by
  induction s with
  | nil => intro K tr h; simp [Slots.levels] at h
  | null r ih =>
    intro K tr h
    simp only [Slots.levels] at h
    have := ih K tr h
    cases K <;> simpa only [preSlotsS] using this
  | node v k r ihk ihr =>
    intro K tr h
    simp only [Slots.levels] at h
    cases K with
    | zero => rfl
    | succ g =>
      simp only [preSlotsS, hf, Bool.false_eq_true, if_false]
      by_cases h1 : g < k.levels
      · rw [ihk g _ h1]; rfl
      · rw [preSlotsS_enough f k g _ (by omega)]
        simp only [Res.bind_ok]
        rw [ihr _ _ (by omega)]; rfl

/-! ### `in_order` -/

theorem toList_nil {k : Slots α} (h : k.toList = []) : k = .nil := by
  cases k <;> first | rfl | simp [Slots.toList] at h

/-- What `ptr->in_order(func)` does in `inLoop`. -/
def inVisit (f : Callback (Node α)) (v : α) (k : Slots α) (tr : List (Node α)) : List (Node α) × Bool × Nat :=
  if k.toList = [] then (tr ++ [(v, k)], false, 1)
  else
    let y := inLoop f (v, k) k (max (k.toList.length - 1) 1) tr false
    (y.1, y.2.1, 1 + y.2.2)

theorem inLoop_visit (f : Callback (Node α)) (owner : Node α) (v : α) (k r : Slots α) (calls : Nat) (tr : List (Node α)) (brk : Bool) :
    inLoop f owner (.node v k r) calls tr brk =
      let x := inVisit f v k tr
      if x.2.1 then (x.1, true, x.2.2)
      else if calls ≠ 0 then
        if f x.1 owner then (x.1 ++ [owner], true, x.2.2)
        else
          let y := inLoop f owner r (dec calls) (x.1 ++ [owner]) false
          (y.1, y.2.1, x.2.2 + y.2.2)
      else
        let y := inLoop f owner r (dec calls) x.1 x.2.1
        (y.1, y.2.1, x.2.2 + y.2.2) := by
  cases k with
  | nil => rfl
  | null k => rw [inLoop] <;> first | rfl | exact fun h => nomatch h
  | node w k k' => rw [inLoop] <;> first | rfl | exact fun h => nomatch h

theorem inLoopS_enough (f : Callback (Node α)) (s : Slots α) : ∀ K owner calls tr brk, s.levels ≤ K →
    inLoopS f K owner s calls tr brk = .ok (inLoop f owner s calls tr brk) := by
  induction s with
  | nil => intro K owner calls tr brk _; cases K <;> rfl
  | null r ih =>
    intro K owner calls tr brk h
    simp only [Slots.levels] at h
    cases K <;>
    · simp only [inLoopS, inLoop, ih _ _ _ _ _ h]
      split
      · split <;> rfl
      · rfl
  | node v k r ihk ihr =>
    intro K owner calls tr brk h
    simp only [Slots.levels] at h
    obtain ⟨g, rfl⟩ : ∃ g, K = g + 1 := ⟨K - 1, by omega⟩
    have e : (if k.toList = [] then Res.ok (tr ++ [(v, k)], false, 1)
        else inLoopS f g (v, k) k (max (k.toList.length - 1) 1) tr false >>= fun y => .ok (y.1, y.2.1, 1 + y.2.2)) =
        Res.ok (inVisit f v k tr) := by
      unfold inVisit
      by_cases hk : k.toList = []
      · rw [if_pos hk, if_pos hk]
      · rw [if_neg hk, if_neg hk, ihk g _ _ _ _ (by omega)]; rfl
    rw [inLoop_visit, inLoopS, e]
    simp only [Res.bind_ok]
    split
    · rfl
    · split
      · split
        · rfl
        · rw [ihr _ _ _ _ _ (by omega)]; rfl
      · rw [ihr _ _ _ _ _ (by omega)]; rfl

/-- A callback that never stops never sets `recursion_break`. -/
theorem inLoopS_brk (f : Callback (Node α)) (hf : ∀ b n, f b n = false) (s : Slots α) : ∀ K owner calls tr x,
    inLoopS f K owner s calls tr false = .ok x → x.2.1 = false := by
  induction s with
  | nil => intro K owner calls tr x h; cases K <;> (cases h; rfl)
  | null r ih =>
    intro K owner calls tr x h
    cases K <;>
    · simp only [inLoopS, hf, Bool.false_eq_true, if_false] at h
      split at h <;> exact ih _ _ _ _ _ h
  | node v k r ihk ihr =>
    intro K owner calls tr x h
    cases K with
    | zero => cases h
    | succ g =>
      rw [inLoopS] at h
      obtain ⟨⟨tr1, brk1, n1⟩, h1, h2⟩ := Res.bind_eq_ok.1 h
      simp only [hf, Bool.false_eq_true, if_false] at h2
      have hb : brk1 = false := by
        split at h1
        · cases h1; rfl
        · obtain ⟨⟨tr2, brk2, n2⟩, h3, h4⟩ := Res.bind_eq_ok.1 h1
          have := ihk _ _ _ _ _ h3
          cases h4
          exact this
      subst hb
      simp only [Bool.false_eq_true, if_false] at h2
      split at h2 <;>
      · obtain ⟨⟨tr2, brk2, n2⟩, h3, h4⟩ := Res.bind_eq_ok.1 h2
        have := ihr _ _ _ _ _ h3
        cases h4
        exact this

theorem inLoopS_short (f : Callback (Node α)) (hf : ∀ b n, f b n = false) (s : Slots α) : ∀ K owner calls tr,
    K < s.levels → inLoopS f K owner s calls tr false = .ub := by
  induction s with
  | nil => intro K owner calls tr h; simp [Slots.levels] at h
  | null r ih =>
    intro K owner calls tr h
    simp only [Slots.levels] at h
    cases K <;>
    · simp only [inLoopS, hf, Bool.false_eq_true, if_false, ih _ _ _ _ h]
      split <;> rfl
  | node v k r ihk ihr =>
    intro K owner calls tr h
    simp only [Slots.levels] at h
    cases K with
    | zero => rfl
    | succ g =>
      rw [inLoopS]
      by_cases h1 : g < k.levels
      · have hk : ¬ k.toList = [] := fun e => by rw [toList_nil e] at h1; simp [Slots.levels] at h1
        rw [if_neg hk, ihk g _ _ _ h1]
        rfl
      · have hr : g + 1 < r.levels := by omega
        have key : ∃ tr1 n1, (if k.toList = [] then Res.ok (tr ++ [(v, k)], false, 1)
            else inLoopS f g (v, k) k (max (k.toList.length - 1) 1) tr false >>= fun y => .ok (y.1, y.2.1, 1 + y.2.2)) =
            .ok (tr1, false, n1) := by
          by_cases hk : k.toList = []
          · exact ⟨_, _, if_pos hk⟩
          · rw [if_neg hk]
            have e := inLoopS_enough f k g (v, k) (max (k.toList.length - 1) 1) tr false (by omega)
            have b := inLoopS_brk f hf k _ _ _ _ _ e
            rw [e]
            generalize inLoop f (v, k) k (max (k.toList.length - 1) 1) tr false = x at b
            obtain ⟨tr1, brk1, n1⟩ := x
            dsimp only at b
            subst b
            exact ⟨_, _, rfl⟩
        obtain ⟨tr1, n1, e⟩ := key
        rw [e]
        simp only [Res.bind_ok, Bool.false_eq_true, if_false, hf]
        rw [ihr _ _ _ _ hr, ihr _ _ _ _ hr]
        split <;> rfl

/-! ### C210 -/

/-- C210: on a stack with room for as many nested calls as the tree has levels, the destructor and the three traversals return what they return on an
unlimited stack, whatever the callback does. -/
theorem C210_enough (f : Callback (Node α)) (K : Nat) (n : Node α) (h : levels n ≤ K) :
    destroyS K n = .ok () ∧ preOrderS f K n = .ok (preOrder f n) ∧ posOrderS K n = .ok (posOrder n) ∧
      inOrderS f K n = .ok (inOrder f n) := by
  unfold levels at h
  obtain ⟨g, rfl⟩ : ∃ g, K = g + 1 := ⟨K - 1, by omega⟩
  refine ⟨?_, ?_, ?_, ?_⟩
  · simp only [destroyS, destroySlotsS_exact]; rw [if_pos (by omega)]
  · exact preSlotsS_enough f _ _ _ (by simp [Slots.levels]; omega)
  · unfold posOrderS posOrder; rw [posSlotsS_exact, if_pos (by simp [Slots.levels]; omega)]
  · obtain ⟨v, k⟩ := n
    unfold inOrderS inOrder
    have e := inLoopS_enough f k g (v, k) (max (k.toList.length - 1) 1) [] false (by simp only at h; omega)
    cases k with
    | nil => rfl
    | null r => simp only [e]; rfl
    | node w k r => simp only [e]; rfl

/-- C210, exactly: with less room the destructor and `pos_order` always overflow the stack, and so do the other traversals with a callback that does not stop. -/
theorem C210_exact (f : Callback (Node α)) (hf : ∀ b n, f b n = false) (K : Nat) (n : Node α) (h : K < levels n) :
    destroyS K n = .ub ∧ preOrderS f K n = .ub ∧ posOrderS K n = .ub ∧ inOrderS f K n = .ub := by
  unfold levels at h
  refine ⟨?_, ?_, ?_, ?_⟩
  · cases K with
    | zero => rfl
    | succ g => simp only [destroyS, destroySlotsS_exact]; rw [if_neg (by omega)]
  · exact preSlotsS_short f hf _ _ _ (by simp [Slots.levels]; omega)
  · unfold posOrderS; rw [posSlotsS_exact, if_neg (by simp [Slots.levels]; omega)]
  · cases K with
    | zero => rfl
    | succ g =>
      obtain ⟨v, k⟩ := n
      unfold inOrderS
      have e := inLoopS_short f hf k g (v, k) (max (k.toList.length - 1) 1) [] (by simp only at h; omega)
      cases k with
      | nil => simp [Slots.levels] at h
      | null r => simp only [e]; rfl
      | node w k r => simp only [e]; rfl

/-- A chain of `m` nodes below each other. -/
def chain (v : α) : Nat → Slots α
  | 0 => .nil
  | m + 1 => .node v (chain v m) .nil

/-- C210: a tree has as many levels as nodes if it is a chain, which is how a tree of `max_node_size` 1 always looks: no stack is large enough to destroy
all trees. -/
theorem C210_chain (v : α) (m : Nat) : (chain v m).size = m ∧ (chain v m).levels = m ∧ destroyS m (v, chain v m) = .ub := by
  have h1 : (chain v m).size = m := by
    induction m with
    | zero => rfl
    | succ m ih => simp [chain, Slots.size, ih]
  have h2 : (chain v m).levels = m := by
    induction m with
    | zero => rfl
    | succ m ih => simp only [chain, Slots.levels, ih (by
        simp only [chain, Slots.size] at h1; omega)]; omega
  refine ⟨h1, h2, ?_⟩
  exact (C210_exact (fun _ _ => false) (fun _ _ => rfl) m (v, chain v m) (by simp only [levels, h2]; omega)).1

/-- C210: there are never more levels than nodes. -/
theorem C210_size (n : Node α) : levels n ≤ n.2.size + 1 := by
  have : ∀ s : Slots α, s.levels ≤ s.size := by
    intro s
    induction s with
    | nil => simp [Slots.levels, Slots.size]
    | null r ih => simpa [Slots.levels, Slots.size] using ih
    | node v k r ihk ihr => simp only [Slots.levels, Slots.size]; omega
  exact Nat.succ_le_succ (this n.2)

/-- Root 1 with the children 2 and 4 (and a null slot between), and 3 below 2. -/
def sample : Node Nat := (1, .node 2 (.node 3 .nil .nil) (.null (.node 4 .nil .nil)))

example : levels sample = 3 ∧ destroyS 3 sample = .ok () ∧ destroyS 2 sample = .ub := by decide +kernel
example : ((inOrderS (fun _ _ => false) 3 sample).toOption.map fun x => (x.1.map Prod.fst, x.2)) = some ([3, 2, 1, 1, 4], 4) := by
  decide +kernel
example : ((preOrderS (fun _ _ => false) 3 sample).toOption.map fun x => (x.1.map Prod.fst, x.2)) = some ([1, 2, 3, 4], 4) := by
  decide +kernel
example : ((posOrderS 3 sample).toOption.map fun x => (x.1.map Prod.fst, x.2)) = some ([3, 2, 4, 1], 4) := by decide +kernel
example : inOrderS (fun _ _ => false) 2 sample = .ub ∧ preOrderS (fun _ _ => false) 2 sample = .ub := by decide +kernel
/-- A callback that stops early needs less. -/
example : (preOrderS (fun _ n => n.1 = 2) 2 sample).isOk = true := by decide +kernel

end Verif.Nary
