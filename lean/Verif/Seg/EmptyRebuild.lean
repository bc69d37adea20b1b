import Verif.Seg.Props

/-
C60: exactly what a segment tree answers after `rebuild` with an empty vector.
-/

namespace Verif.Seg
open Spec Verif.Heap
set_option linter.unusedSectionVars false
variable {T V U : Type} {X : Transform T V U}

/-- A walk that leaves the tree's interval on the right reaches a leaf that does not match: the code has no branch for it. -/
theorem walk_beyond (K : Keeps X) {stp : RNode V U → Bool} {f : RNode V U → RNode V U} (hf : ∀ n, SameBox n (f n))
    (fuel : Nat) : ∀ {h : List (RNode V U)} {i a b s e : Nat},
    Shape h i a b → a ≤ s → b < e → b - a < fuel → walk X stp f fuel s e i h = .ub := by
  induction fuel with
  | zero => intro h i a b s e _ _ _ hf; omega
  | succ fuel ih =>
    intro h i a b s e rep h1 h3 hfu
    unfold walk
    cases rep with
    | leaf hn hs he hi =>
      rename_i n
      rw [rd_some hn]
      have hlf : n.leaf = true := by simp [RNode.leaf, hs, he]
      simp only [Res.bind_ok]
      rw [if_neg (fun c => by have := c.1.2; omega), if_neg (by simp [hlf])]
    | node hab hn hs he hi hl hr =>
      rename_i n
      rw [rd_some hn]
      simp only [Res.bind_ok]
      have hlf : n.leaf = false := by simp [RNode.leaf]; omega
      rw [if_neg (fun c => by have := c.1.2; omega), if_pos hlf, hi, leftOf_eq, rightOf_eq]
      have hcen : n.center = (a + b) / 2 := by rw [RNode.center, hs, he]
      obtain ⟨l, hl', -⟩ := hl.root
      obtain ⟨r, hr', -⟩ := hr.root
      rw [rd_some hl', rd_some hr']
      simp only [Res.bind_ok]
      generalize eh : (if X.has n.lazy = true then put (put (put h i (X.propagate n l r).1) (2 * i + 1)
        (X.propagate n l r).2.1) (2 * i + 2) (X.propagate n l r).2.2 else h) = hh1
      have sb : SameBoxes h hh1 := by
        rw [← eh]
        split
        · obtain ⟨k1, k2, k3⟩ := K.propagate n l r
          have g1 := SameBoxes.put hn k1
          have q1 : (put h i (X.propagate n l r).1)[2 * i + 1]? = some l := by
            simp only [put, List.getElem?_set, if_neg (show ¬ i = 2 * i + 1 by omega)]; exact hl'
          have g2 := SameBoxes.put q1 k2
          have q2 : (put (put h i (X.propagate n l r).1) (2 * i + 1) (X.propagate n l r).2.1)[2 * i + 2]? = some r := by
            simp only [put, List.getElem?_set, if_neg (show ¬ i = 2 * i + 2 by omega),
              if_neg (show ¬ 2 * i + 1 = 2 * i + 2 by omega)]; exact hr'
          exact (g1.trans g2).trans (SameBoxes.put q2 k3)
        · exact .refl h
      have hl1 := hl.same sb
      have hr1 := hr.same sb
      rw [hcen]
      by_cases c1 : s ≤ (a + b) / 2 ∧ e > (a + b) / 2
      · rw [if_pos c1]
        obtain ⟨v2, h2', w1, w2⟩ := walk_shape K hf fuel hl1 h1 c1.1 (Nat.le_refl _) (by omega)
        rw [w1]; simp only [Res.bind_ok]
        rw [ih (hr1.same w2) (Nat.le_refl _) h3 (by omega)]
        rfl
      · rw [if_neg c1, if_neg (by omega), if_pos (by omega), ih hr1 (by omega) h3 (by omega)]
        rfl

/-- The arguments are values of `size_t`. -/
def Spec.OpWord : Op T U → Prop
  | .query a b => a < W ∧ b < W
  | .update a b _ => a < W ∧ b < W
  | .rebuild _ _ => False

/-- A query or update within the first `n` positions. -/
def Spec.OpInside (n : Nat) : Op T U → Prop
  | .query a b => a < n ∧ b < n
  | .update a b _ => a < n ∧ b < n
  | .rebuild _ _ => False

/-- The tree with the size that `rebuild({})` gives it. -/
def emptied (t : SegT V U) : SegT V U := { t with size := 0 }

theorem emptied_step (K : Keeps X) {t : SegT V U} (r : TShape t) {a b : Nat} (ha : a < W) (hb : b < W) (u : U) :
    (a < t.size → b < t.size →
      query X (emptied t) a b = (query X t a b >>= fun p => .ok (p.1, emptied p.2)) ∧
      queryUpdate X (emptied t) a b u = (queryUpdate X t a b u >>= fun p => .ok (p.1, emptied p.2))) ∧
    (¬ (a < t.size ∧ b < t.size) → query X (emptied t) a b = .ub ∧ queryUpdate X (emptied t) a b u = .ub) := by
  have hpos := r.pos
  have hbd := r.bound
  have hl : lastPos t = t.size - 1 := by
    have h3 : 0 < W := by decide
    unfold lastPos
    have : t.size + W - 1 = (t.size - 1) + W := by omega
    rw [this, Nat.add_mod_right, Nat.mod_eq_of_lt (by omega)]
  have hl0 : lastPos (emptied t) = W - 1 := by
    have h3 : 0 < W := by decide
    unfold lastPos emptied
    simp only [Nat.zero_add]
    exact Nat.mod_eq_of_lt (by omega)
  have hhead : ∃ x, Heap.head t.heap = .ok x := by
    have := r.cap
    unfold Heap.head
    exact ⟨_, rdAt_lt (show 0 < t.heap.length by omega)⟩
  obtain ⟨x, hx⟩ := hhead
  have hcap := r.cap
  constructor
  · intro h1 h2
    constructor
    · unfold query
      rw [hl, hl0]
      simp only [emptied, r.built, Bool.true_eq_false, if_false, hx, Res.bind_ok]
      rw [show min (min a b) (W - 1) = min (min a b) (t.size - 1) by omega,
        show min (max a b) (W - 1) = min (max a b) (t.size - 1) by omega]
      cases rangeQuery X t.heap.length (min (min a b) (t.size - 1)) (min (max a b) (t.size - 1)) 0 t.heap <;> rfl
    · unfold queryUpdate
      rw [hl, hl0]
      simp only [emptied, r.built, Bool.true_eq_false, if_false, hx, Res.bind_ok]
      rw [show min (min a b) (W - 1) = min (min a b) (t.size - 1) by omega,
        show min (max a b) (W - 1) = min (max a b) (t.size - 1) by omega]
      cases rangeUpdate X u t.heap.length (min (min a b) (t.size - 1)) (min (max a b) (t.size - 1)) 0 t.heap <;> rfl
  · intro h
    constructor
    · unfold query
      rw [hl0]
      simp only [emptied, r.built, Bool.true_eq_false, if_false, hx, Res.bind_ok]
      rw [rangeQuery_eq_walk, walk_beyond K (fun n => ⟨rfl, rfl, rfl⟩) _ r.shape (Nat.zero_le _) (by omega) (by omega)]
      rfl
    · unfold queryUpdate
      rw [hl0]
      simp only [emptied, r.built, Bool.true_eq_false, if_false, hx, Res.bind_ok]
      rw [rangeUpdate_eq_walk, walk_beyond K (fun n => ?_) _ r.shape (Nat.zero_le _) (by omega) (by omega)]
      · rfl
      · split
        · exact K.apply n u
        · exact ⟨rfl, rfl, rfl⟩

/-- C60, exactly: let a tree be built from a non-empty vector, used in any way, and then rebuilt from an empty one.  As long
as all later bounds are below the old size, queries and updates answer as if the second `rebuild` had not happened; the
first one with a bound that is not is undefined (instead of clamped). -/
theorem C60_exact (X : Transform T V U) (K : Keeps X) (need : Nat → Nat) (hneed : Roomy need)
    (input : List T) (number m : Nat) (hb : input.length ≤ W) (hne : input.take number ≠ [])
    (ops : List (Op T U)) (hops : ∀ op ∈ ops, OpOk (fun _ => True) op) :
    ∃ t vs, run X need SegT.new (.rebuild input number :: ops) = .ok (t, vs) ∧
      build X need t [] m = .ok (emptied t) ∧
      ∀ later : List (Op T U), (∀ op ∈ later, OpWord op) →
        ((∀ op ∈ later, OpInside t.size op) →
          run X need (emptied t) later = (run X need t later >>= fun p => .ok (emptied p.1, p.2)) ∧
          ∃ p, run X need t later = .ok p) ∧
        (¬ (∀ op ∈ later, OpInside t.size op) → run X need (emptied t) later = .ub) := by
  obtain ⟨t, e, r, -⟩ := build_shape (X := X) hneed SegT.new input number hb hne
  obtain ⟨t', vs, e2, r'⟩ := run_shape K hneed ops r hops
  refine ⟨t', none :: vs, by simp only [run, e, Res.bind_ok, e2], ?_, fun later => ?_⟩
  · unfold build emptied
    simp
  · clear e2
    induction later generalizing t' with
    | nil => exact fun _ => ⟨fun _ => ⟨rfl, _, rfl⟩, fun h => absurd (by intro op hop; cases hop) h⟩
    | cons op later ih =>
      intro hw
      have hwr : ∀ op ∈ later, OpWord op := fun o ho => hw o (List.mem_cons_of_mem _ ho)
      have hw1 := hw op List.mem_cons_self
      cases op with
      | rebuild _ _ => exact absurd hw1 id
      | query a b =>
        obtain ⟨v, t1, e1, r1, -, es⟩ := (tshape_walk K r' a b X.none).1
        obtain ⟨k1, k2⟩ := emptied_step K r' hw1.1 hw1.2 X.none
        obtain ⟨j1, j2⟩ := ih t1 r1 hwr
        by_cases hin : a < t'.size ∧ b < t'.size
        · have hq := (k1 hin.1 hin.2).1
          rw [e1, Res.bind_ok] at hq
          simp only [run, hq, e1, Res.bind_ok]
          constructor
          · intro h
            obtain ⟨q1, p, q2⟩ := j1 (fun o ho => by rw [es]; exact h o (List.mem_cons_of_mem _ ho))
            rw [q1, q2]
            exact ⟨rfl, _, rfl⟩
          · intro h
            rw [j2 (fun g => h (fun o ho => by
              rcases List.mem_cons.1 ho with rfl | ho
              · exact hin
              · rw [← es]; exact g o ho))]
            rfl
        · constructor
          · intro h; exact absurd (h _ List.mem_cons_self) hin
          · intro _
            simp only [run, (k2 hin).1]
            rfl
      | update a b u =>
        obtain ⟨v, t1, e1, r1, -, es⟩ := (tshape_walk K r' a b u).2
        obtain ⟨k1, k2⟩ := emptied_step K r' hw1.1 hw1.2 u
        obtain ⟨j1, j2⟩ := ih t1 r1 hwr
        by_cases hin : a < t'.size ∧ b < t'.size
        · have hq := (k1 hin.1 hin.2).2
          rw [e1, Res.bind_ok] at hq
          simp only [run, hq, e1, Res.bind_ok]
          constructor
          · intro h
            obtain ⟨q1, p, q2⟩ := j1 (fun o ho => by rw [es]; exact h o (List.mem_cons_of_mem _ ho))
            rw [q1, q2]
            exact ⟨rfl, _, rfl⟩
          · intro h
            rw [j2 (fun g => h (fun o ho => by
              rcases List.mem_cons.1 ho with rfl | ho
              · exact hin
              · rw [← es]; exact g o ho))]
            rfl
        · constructor
          · intro h; exact absurd (h _ List.mem_cons_self) hin
          · intro _
            simp only [run, (k2 hin).2]
            rfl

example : (run addSum exactNeed SegT.new [.rebuild [1, 2, 3] 3, .rebuild [] 0, .update 0 1 5, .query 1 2] >>= fun p =>
    .ok p.2) = .ok [none, none, some 13, some 10] := by decide +kernel
example : run addSum exactNeed SegT.new [.rebuild [1, 2, 3] 3, .rebuild [] 0, .query 1 3] = .ub := by decide +kernel

end Verif.Seg
