import Verif.Nary.Spec

/-! Helper lemmas for the traversals. -/

namespace Verif.Nary
open Spec
variable {α ν : Type}

/-- Whether `cut` ended because `f` said so. -/
def stops (f : Callback ν) (tr : List ν) : List ν → Bool
  | [] => false
  | n :: l => f tr n || stops f (tr ++ [n]) l

theorem cut_append (f : Callback ν) (a b : List ν) : ∀ tr,
    cut f tr (a ++ b) = if stops f tr a then cut f tr a else a ++ cut f (tr ++ a) b := by
  induction a with
  | nil => intro tr; simp [stops]
  | cons n a ih =>
    intro tr
    simp only [List.cons_append, cut, stops]
    by_cases h : f tr n = true
    · simp [h]
    · have h' : f tr n = false := by simpa using h
      simp only [h', Bool.false_or, Bool.false_eq_true, if_false, ih]
      split
      · rfl
      · simp

theorem stops_append (f : Callback ν) (a b : List ν) : ∀ tr,
    stops f tr (a ++ b) = (stops f tr a || stops f (tr ++ a) b) := by
  induction a with
  | nil => intro tr; simp [stops]
  | cons n a ih => intro tr; simp [stops, ih, Bool.or_assoc]

theorem cut_of_not_stops (f : Callback ν) (l : List ν) : ∀ tr, stops f tr l = false → cut f tr l = l := by
  induction l with
  | nil => intro _ _; rfl
  | cons n l ih =>
    intro tr h
    simp only [stops, Bool.or_eq_false_iff] at h
    simp [cut, h.1, ih _ h.2]

theorem stops_never (f : Callback ν) (h : ∀ tr n, f tr n = false) (l : List ν) : ∀ tr, stops f tr l = false := by
  induction l with
  | nil => intro _; rfl
  | cons n l ih => intro tr; simp [stops, h, ih]

theorem kidsOf_preorder (k : Slots α) : (kidsOf k).flatMap (fun n => n :: preorder n.2) = preorder k := by
  induction k with
  | nil => rfl
  | null r ih => exact ih
  | node v k r _ ihr =>
    show (v, k) :: preorder k ++ (kidsOf r).flatMap (fun n => n :: preorder n.2) = _
    rw [ihr]; rfl

theorem dfsLoop_eq (f : Callback (Node α)) : ∀ (st tr : List (Node α)) (c : Nat),
    dfsLoop f st tr c = (tr ++ cut f tr (st.flatMap fun n => n :: preorder n.2),
      c + (cut f tr (st.flatMap fun n => n :: preorder n.2)).length) := by
  intro st tr c
  fun_induction dfsLoop f st tr c with
  | case1 tr c => simp [cut]
  | case2 n st tr c stop h =>
    have h' : f tr n = true := h
    simp [cut, h']
  | case3 n st tr c stop st' h ih =>
    have h' : f tr n = false := by simpa using h
    have e : st' = kidsOf n.2 ++ st := by
      show (kidsOf n.2).reverse.foldl _ st = _
      rw [foldl_push, List.reverse_reverse]
    rw [ih, e, List.flatMap_append, kidsOf_preorder]
    simp [cut, h']
    omega

theorem foldl_enq (l q : List (Node α)) : l.foldl (fun q c => q ++ [c]) q = q ++ l := by
  induction l generalizing q with
  | nil => simp
  | cons x l ih => simp [ih]

/-- Queue order without stopping. -/
def bOrder (q : List (Node α)) : List (Node α) :=
  match q with
  | [] => []
  | n :: q => n :: bOrder (q ++ kidsOf n.2)
termination_by work q
decreasing_by
  rw [work_append, work_kidsOf]
  show _ < n.2.size + 1 + work q
  omega

theorem bfsLoop_eq (f : Callback (Node α)) : ∀ (q tr : List (Node α)) (c : Nat),
    bfsLoop f q tr c = (tr ++ cut f tr (bOrder q), c + (cut f tr (bOrder q)).length) := by
  intro q tr c
  fun_induction bfsLoop f q tr c with
  | case1 tr c => simp [cut, bOrder]
  | case2 n q tr c stop h =>
    have h' : f tr n = true := h
    rw [bOrder]
    simp [cut, h']
  | case3 n q tr c stop q' h ih =>
    have h' : f tr n = false := by simpa using h
    have e : q' = q ++ kidsOf n.2 := foldl_enq _ _
    rw [ih, e]
    conv => rhs; rw [bOrder]
    simp [cut, h']
    omega

theorem bOrder_level (q acc : List (Node α)) :
    bOrder (q ++ acc) = q ++ bOrder (acc ++ q.flatMap fun n => kidsOf n.2) := by
  induction q generalizing acc with
  | nil => simp
  | cons n q ih =>
    rw [List.cons_append, bOrder, List.append_assoc, ih]
    simp [List.append_assoc]

/-- Nodes `d` levels below a list of nodes. -/
def atDepthL (q : List (Node α)) : Nat → List (Node α)
  | 0 => q
  | d + 1 => q.flatMap fun n => atDepth n.2 d

theorem atDepth_eq (k : Slots α) : ∀ d, atDepth k d = atDepthL (kidsOf k) d := by
  induction k with
  | nil => intro d; cases d <;> rfl
  | null r ih => intro d; cases d <;> exact ih _
  | node v k r ihk ihr =>
    intro d
    cases d with
    | zero =>
      show (v, k) :: atDepth r 0 = (v, k) :: kidsOf r
      rw [ihr]; rfl
    | succ d =>
      show atDepth k d ++ atDepth r (d + 1) = atDepth k d ++ (kidsOf r).flatMap _
      rw [ihr]; rfl

theorem atDepthL_succ (q : List (Node α)) (d : Nat) :
    atDepthL q (d + 1) = atDepthL (q.flatMap fun n => kidsOf n.2) d := by
  cases d with
  | zero =>
    show q.flatMap _ = q.flatMap _
    congr 1; funext n; rw [atDepth_eq]; rfl
  | succ d =>
    show q.flatMap _ = (q.flatMap _).flatMap _
    rw [List.flatMap_assoc]
    congr 1; funext n
    rw [atDepth_eq]; rfl

/-- Levels of a list of nodes. -/
def levelsL : List (Node α) → Nat
  | [] => 0
  | n :: q => max (levels n.2 + 1) (levelsL q)

theorem levels_eq (k : Slots α) : levels k = levelsL (kidsOf k) := by
  induction k with
  | nil => rfl
  | null r ih => exact ih
  | node v k r _ ihr =>
    show max (levels k + 1) (levels r) = max (levels k + 1) (levelsL (kidsOf r))
    rw [ihr]

theorem levelsL_append (p q : List (Node α)) : levelsL (p ++ q) = max (levelsL p) (levelsL q) := by
  induction p with
  | nil => simp [levelsL]
  | cons n p ih => simp only [List.cons_append, levelsL, ih]; omega

theorem levelsL_kids (q : List (Node α)) (h : q ≠ []) :
    levelsL q = levelsL (q.flatMap fun n => kidsOf n.2) + 1 := by
  induction q with
  | nil => exact absurd rfl h
  | cons n q ih =>
    simp only [List.flatMap_cons, levelsL, levelsL_append, ← levels_eq]
    by_cases hq : q = []
    · subst hq; simp [levelsL]
    · rw [ih hq]; omega

theorem bOrder_levels : ∀ (L : Nat) (q : List (Node α)), levelsL q = L →
    bOrder q = (List.range L).flatMap (atDepthL q) := by
  intro L
  induction L with
  | zero =>
    intro q h
    cases q with
    | nil => simp [bOrder]
    | cons n q => simp only [levelsL] at h; omega
  | succ L ih =>
    intro q h
    have hq : q ≠ [] := by rintro rfl; simp [levelsL] at h
    have h' : levelsL (q.flatMap fun n => kidsOf n.2) = L := by
      have := levelsL_kids q hq; omega
    have := bOrder_level q []
    rw [List.append_nil, List.nil_append] at this
    rw [this, ih _ h', List.range_succ_eq_map, List.flatMap_cons, List.flatMap_map]
    congr 1
    congr 1; funext d; exact (atDepthL_succ q d).symm

theorem count_eq_size (k : Slots α) : Spec.count k = k.size := by
  induction k with
  | nil => rfl
  | null r ih => exact ih
  | node v k r h1 h2 => simp only [Spec.count, Slots.size, h1, h2]; omega

theorem preorder_length (k : Slots α) : (preorder k).length = Spec.count k := by
  induction k with
  | nil => rfl
  | null r ih => exact ih
  | node v k r h1 h2 => simp [preorder, Spec.count, h1, h2]; omega

/-! Recursive n-ary traversals. -/

theorem preSlots_never (f : Callback (Node α)) (h : ∀ tr n, f tr n = false) (k : Slots α) :
    ∀ tr, preSlots f k tr = (tr ++ preorder k, Spec.count k) := by
  induction k with
  | nil => intro tr; simp [preSlots, preorder, Spec.count]
  | null r ih => intro tr; exact ih tr
  | node v k r h1 h2 =>
    intro tr
    simp only [preSlots, h, Bool.false_eq_true, if_false, h1, h2, preorder, Spec.count]
    simp

theorem posSlots_eq (k : Slots α) : ∀ tr, posSlots k tr = (tr ++ postorder k, Spec.count k) := by
  induction k with
  | nil => intro tr; simp [posSlots, postorder, Spec.count]
  | null r ih => intro tr; exact ih tr
  | node v k r h1 h2 =>
    intro tr
    simp only [posSlots, h1, h2, postorder, Spec.count]
    simp

/-- The remaining visits of the `in_order` loop. -/
def rem (owner : Node α) : List (List (Node α)) → Nat → List (Node α)
  | [], _ => []
  | p :: ps, c => p ++ (if c ≠ 0 then [owner] else []) ++ rem owner ps (dec c)

theorem rem_between (owner : Node α) : ∀ (ps : List (List (Node α))) (q : List (Node α)),
    rem owner (q :: ps) ps.length = match ps with
      | [] => q
      | _ => between owner (q :: ps) := by
  intro ps
  induction ps with
  | nil => intro q; simp [rem]
  | cons p ps ih =>
    intro q
    have e : dec (ps.length + 1) = ps.length := by simp [dec]
    rw [rem, List.length_cons, e, ih]
    cases ps with
    | nil => simp [between]
    | cons p' ps => simp [between]

theorem rem_start (owner : Node α) (ps : List (List (Node α))) (h : ps ≠ []) :
    rem owner ps (max (ps.length - 1) 1) = between owner ps := by
  match ps, h with
  | [p], _ => simp [rem, between]
  | p :: q :: ps, _ =>
    have := rem_between owner (q :: ps) p
    simp only [List.length_cons] at this ⊢
    rw [show max (ps.length + 1 + 1 - 1) 1 = ps.length + 1 by omega, this]

theorem parts_length (k : Slots α) : (parts k).length = k.toList.length := by
  induction k with
  | nil => rfl
  | null r ih => simp [parts, Slots.toList, ih]
  | node v k r _ ih => simp [parts, Slots.toList, ih]

theorem parts_ne_nil {k : Slots α} (h : k ≠ .nil) : parts k ≠ [] := by
  cases k <;> simp_all [parts]

/-- The stop request that `in_order` honours: only from nodes that have slots. -/
def inner (f : Callback (Node α)) : Callback (Node α) := fun tr n =>
  match n.2 with
  | .nil => false
  | _ => f tr n

theorem inner_of_ne {f : Callback (Node α)} {n : Node α} (h : n.2 ≠ .nil) (tr) : inner f tr n = f tr n := by
  unfold inner
  split
  · next e => exact absurd e h
  · rfl

/-- One recursive call `ptr->in_order(func)`. -/
def inNode (f : Callback (Node α)) (n : Node α) (tr : List (Node α)) : List (Node α) × Bool × Nat :=
  match n.2 with
  | .nil => (tr ++ [n], false, 1)
  | k =>
    let (tr, brk, m) := inLoop f n k (max (k.toList.length - 1) 1) tr false
    (tr, brk, 1 + m)

theorem inLoop_node (f : Callback (Node α)) (owner : Node α) (v : α) (k r : Slots α) (calls tr b) :
    inLoop f owner (.node v k r) calls tr b =
      let (tr, brk, n1) := inNode f (v, k) tr
      if brk then (tr, true, n1)
      else if calls ≠ 0 then
        if f tr owner then (tr ++ [owner], true, n1)
        else
          let (tr, brk, n2) := inLoop f owner r (dec calls) (tr ++ [owner]) false
          (tr, brk, n1 + n2)
      else
        let (tr, brk, n2) := inLoop f owner r (dec calls) tr brk
        (tr, brk, n1 + n2) := by
  cases k <;> rfl

/-- What a traversal from `tr` over the full visiting order `full` with `cnt` nodes looks like. -/
def Good (f : Callback (Node α)) (tr full : List (Node α)) (cnt : Nat) (res : List (Node α) × Bool × Nat) : Prop :=
  res.1 = tr ++ cut (inner f) tr full ∧ res.2.1 = stops (inner f) tr full ∧
  (stops (inner f) tr full = false → res.2.2 = cnt)

theorem inLoop_eq (f : Callback (Node α)) (k : Slots α) : ∀ (owner : Node α) (calls : Nat) (tr : List (Node α)),
    owner.2 ≠ .nil → Good f tr (rem owner (parts k) calls) (Spec.count k) (inLoop f owner k calls tr false) := by
  induction k with
  | nil => intro owner calls tr _; simp [inLoop, parts, rem, cut, stops, Spec.count, Good]
  | null r ih =>
    intro owner calls tr ho
    simp only [inLoop, parts, rem, List.nil_append]
    by_cases hc : calls ≠ 0
    · simp only [if_pos hc]
      have e := inner_of_ne (f := f) ho tr
      by_cases hb : f tr owner = true
      · simp only [hb, if_true]
        simp [Good, cut, stops, e, hb]
      · have hb' : f tr owner = false := by simpa using hb
        simp only [hb', Bool.false_eq_true, if_false]
        obtain ⟨i1, i2, i3⟩ := ih owner (dec calls) (tr ++ [owner]) ho
        refine ⟨?_, ?_, ?_⟩
        · rw [i1]; simp [cut, e, hb']
        · rw [i2]; simp [stops, e, hb']
        · intro hs
          have hs' : stops (inner f) (tr ++ [owner]) (rem owner (parts r) (dec calls)) = false := by
            simpa [stops, e, hb'] using hs
          exact i3 hs'
    · simp only [if_neg hc, List.nil_append]
      exact ih owner (dec calls) tr ho
  | node v k r ihk ihr =>
    intro owner calls tr ho
    have hnode : Good f tr (between (v, k) (parts k)) (1 + Spec.count k) (inNode f (v, k) tr) := by
      unfold inNode
      split
      · next e =>
        simp only at e
        subst e
        simp [Good, parts, between, cut, stops, Spec.count, inner]
      · next hk e =>
        simp only at e
        have hne : k ≠ .nil := e
        obtain ⟨i1, i2, i3⟩ := ihk (v, k) (max (k.toList.length - 1) 1) tr hne
        rw [← parts_length, rem_start _ _ (parts_ne_nil hne)] at i1 i2 i3
        rw [← parts_length]
        exact ⟨i1, i2, fun hs => by show 1 + _ = _; rw [i3 hs]⟩
    rw [inLoop_node]
    obtain ⟨n1, n2, n3⟩ := hnode
    generalize inNode f (v, k) tr = res at *
    obtain ⟨tr1, brk, m⟩ := res
    simp only at n1 n2 n3
    simp only [parts, rem, List.append_assoc]
    generalize between (v, k) (parts k) = B at *
    simp only [Good, cut_append, stops_append, Spec.count]
    cases hbrk : brk with
    | true =>
      rw [hbrk] at n2
      simp [← n2, n1]
    | false =>
      rw [hbrk] at n2
      have ns := n2.symm
      have hm := n3 ns
      rw [cut_of_not_stops _ _ _ ns] at n1
      subst n1
      simp only [ns, Bool.false_eq_true, if_false, Bool.false_or]
      have e := inner_of_ne (f := f) ho (tr ++ B)
      by_cases hc : calls ≠ 0
      · simp only [if_pos hc]
        by_cases hb : f (tr ++ B) owner = true
        · simp [hb, cut, stops, e]
        · have hb' : f (tr ++ B) owner = false := by simpa using hb
          obtain ⟨i1, i2, i3⟩ := ihr owner (dec calls) (tr ++ B ++ [owner]) ho
          simp only [hb', Bool.false_eq_true, if_false, cut, stops, e, Bool.false_or]
          refine ⟨?_, ?_, fun hs => ?_⟩
          · rw [i1]; simp
          · rw [i2]
          · rw [hm, i3 hs]
      · simp only [if_neg hc, cut, stops]
        obtain ⟨i1, i2, i3⟩ := ihr owner (dec calls) (tr ++ B) ho
        simp only [List.nil_append, List.append_nil, Bool.false_or, Bool.false_eq_true, if_false]
        refine ⟨?_, ?_, fun hs => ?_⟩
        · rw [i1]; simp
        · rw [i2]
        · rw [hm, i3 hs]

/-! Binary traversals. -/

theorem bIn_pruned (p : BNode α → Bool) (t : Avl.Tree α) : ∀ tr,
    bIn (fun _ n => p n) t tr = (tr ++ bInorderPruned p t, (bInorderPruned p t).length) := by
  induction t with
  | nil => intro tr; simp [bIn, bInorderPruned]
  | node i q v h l r ihl ihr =>
    intro tr
    simp only [bIn, ihl, bInorderPruned]
    cases hp : p (i, v, l, r) with
    | true => simp; omega
    | false => simp only [Bool.false_eq_true, if_false, ihr]; simp; omega

theorem bPre_pruned (p : BNode α → Bool) (t : Avl.Tree α) : ∀ tr,
    bPre (fun _ n => p n) t tr = (tr ++ bPreorderPruned p t, (bPreorderPruned p t).length) := by
  induction t with
  | nil => intro tr; simp [bPre, bPreorderPruned]
  | node i q v h l r ihl ihr =>
    intro tr
    simp only [bPre, bPreorderPruned]
    cases hp : p (i, v, l, r) with
    | true => simp
    | false => simp only [Bool.false_eq_true, if_false, ihl, ihr]; simp; omega

theorem bIn_never (f : Callback (BNode α)) (h : ∀ tr n, f tr n = false) (t : Avl.Tree α) : ∀ tr,
    bIn f t tr = (tr ++ bInorder t, bCount t) := by
  induction t with
  | nil => intro tr; simp [bIn, bInorder, bCount]
  | node i q v hh l r ihl ihr =>
    intro tr
    simp only [bIn, ihl, bInorder, bCount, h, Bool.false_eq_true, if_false, ihr]
    simp; omega

theorem bPre_never (f : Callback (BNode α)) (h : ∀ tr n, f tr n = false) (t : Avl.Tree α) : ∀ tr,
    bPre f t tr = (tr ++ bPreorder t, bCount t) := by
  induction t with
  | nil => intro tr; simp [bPre, bPreorder, bCount]
  | node i q v hh l r ihl ihr =>
    intro tr
    simp only [bPre, bPreorder, bCount, h, Bool.false_eq_true, if_false, ihl, ihr]
    simp; omega

theorem bPos_eq (t : Avl.Tree α) : ∀ tr, bPos t tr = (tr ++ bPostorder t, bCount t) := by
  induction t with
  | nil => intro tr; simp [bPos, bPostorder, bCount]
  | node i q v hh l r ihl ihr =>
    intro tr
    simp only [bPos, bPostorder, bCount, ihl, ihr]
    simp; omega

/-- In every case `visited` is the number of calls. -/
theorem bIn_count (f : Callback (BNode α)) (t : Avl.Tree α) : ∀ tr,
    (bIn f t tr).1.length = tr.length + (bIn f t tr).2 ∧ tr <+: (bIn f t tr).1 := by
  induction t with
  | nil => intro tr; simp [bIn]
  | node i q v hh l r ihl ihr =>
    intro tr
    simp only [bIn]
    obtain ⟨a, b⟩ := ihl tr
    generalize bIn f l tr = res at *
    obtain ⟨tr1, n1⟩ := res
    simp only at *
    split
    · refine ⟨by simp; omega, b.trans (List.prefix_append _ _)⟩
    · obtain ⟨c, d⟩ := ihr (tr1 ++ [(i, v, l, r)])
      refine ⟨by simp at c ⊢; omega, b.trans ((List.prefix_append _ _).trans d)⟩

theorem bPre_count (f : Callback (BNode α)) (t : Avl.Tree α) : ∀ tr,
    (bPre f t tr).1.length = tr.length + (bPre f t tr).2 ∧ tr <+: (bPre f t tr).1 := by
  induction t with
  | nil => intro tr; simp [bPre]
  | node i q v hh l r ihl ihr =>
    intro tr
    simp only [bPre]
    split
    · refine ⟨by simp, List.prefix_append _ _⟩
    · obtain ⟨a, b⟩ := ihl (tr ++ [(i, v, l, r)])
      obtain ⟨c, d⟩ := ihr (bPre f l (tr ++ [(i, v, l, r)])).1
      refine ⟨by simp at a c ⊢; omega, (List.prefix_append _ _).trans (b.trans d)⟩

theorem ofBinary_preorder (t : Avl.Tree α) : ∀ rest,
    (preorder (ofBinary t rest)).map (·.1) = (bPreorder t).map (fun n => (n.1, n.2.1)) ++ (preorder rest).map (·.1) := by
  induction t with
  | nil => intro rest; simp [ofBinary, preorder, bPreorder]
  | node i q v hh l r ihl ihr =>
    intro rest
    simp [ofBinary, preorder, bPreorder, ihl, ihr]

end Verif.Nary
