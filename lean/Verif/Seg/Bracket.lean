import Verif.Seg.Run

/-!
C195: queries with a `join` that is not associative, such as the addition of `double`s (structures/segment_tree.h:178-187, 336-382, 447-489).

`Br` is a sum with its brackets.  A query without updates returns the addressed elements, in order, in some brackets.
-/

namespace Verif.Seg
open Spec Verif.Heap
variable {T V U : Type} {X : Transform T V U}

/-- An expression of `join`s. -/
inductive Br (V : Type) where
  | leaf (v : V)
  | node (l r : Br V)

namespace Br

def eval (join : V → V → V) : Br V → V
  | leaf v => v
  | node l r => join (l.eval join) (r.eval join)

def leaves : Br V → List V
  | leaf v => [v]
  | node l r => l.leaves ++ r.leaves

/-- The number of `join`s on top of each other. -/
def depth : Br V → Nat
  | leaf _ => 0
  | node l r => max l.depth r.depth + 1

/-- The part of an expression for the leaves `s` to `e`: whole subexpressions where possible. -/
def cut : Br V → Nat → Nat → Br V
  | leaf v, _, _ => leaf v
  | node l r, s, e =>
    if s = 0 ∧ e + 1 = l.leaves.length + r.leaves.length then node l r
    else if e < l.leaves.length then l.cut s e
    else if l.leaves.length ≤ s then r.cut (s - l.leaves.length) (e - l.leaves.length)
    else node (l.cut s (l.leaves.length - 1)) (r.cut 0 (e - l.leaves.length))

end Br

/-- The subtree at cell `i` covers `[a, b]` and holds the value of the expression; no update is pending. -/
inductive Holds (X : Transform T V U) (h : List (RNode V U)) : Nat → Nat → Nat → Br V → Prop
  | leaf {i a : Nat} {n : RNode V U} (hn : h[i]? = some n) (hs : n.start = a) (he : n.stop = a) (hi : n.index = i) :
    Holds X h i a a (.leaf n.value)
  | node {i a b : Nat} {n : RNode V U} {L R : Br V} (hab : a < b) (hn : h[i]? = some n) (hs : n.start = a)
    (he : n.stop = b) (hi : n.index = i) (hl : Holds X h (2 * i + 1) a ((a + b) / 2) L)
    (hr : Holds X h (2 * i + 2) ((a + b) / 2 + 1) b R) (hz : X.has n.lazy = false)
    (hv : n.value = X.join (L.eval X.join) (R.eval X.join)) : Holds X h i a b (.node L R)

theorem Holds.le {h : List (RNode V U)} {i a b B} (r : Holds X h i a b B) : a ≤ b := by
  cases r <;> omega

theorem Holds.length {h : List (RNode V U)} {i a b B} (r : Holds X h i a b B) : B.leaves.length = b + 1 - a := by
  induction r with
  | leaf => simp [Br.leaves]
  | node hab hn hs he hi hl hr hz hv ihl ihr => simp [Br.leaves, ihl, ihr]; omega

theorem Holds.root {h : List (RNode V U)} {i a b B} (r : Holds X h i a b B) :
    ∃ n, h[i]? = some n ∧ n.start = a ∧ n.stop = b ∧ n.index = i ∧ n.value = B.eval X.join ∧ (a < b → X.has n.lazy = false) := by
  cases r with
  | leaf hn hs he hi => exact ⟨_, hn, hs, he, hi, rfl, fun h => absurd h (Nat.lt_irrefl _)⟩
  | node hab hn hs he hi hl hr hz hv => exact ⟨_, hn, hs, he, hi, hv, fun _ => hz⟩

theorem Holds.frame {h h' : List (RNode V U)} {i a b B} (r : Holds X h i a b B)
    (e : ∀ j, Under i j → h'[j]? = h[j]?) : Holds X h' i a b B := by
  induction r with
  | leaf hn hs he hi => exact .leaf (by rw [e _ (under_self _)]; exact hn) hs he hi
  | node hab hn hs he hi hl hr hz hv ihl ihr =>
    exact .node hab (by rw [e _ (under_self _)]; exact hn) hs he hi (ihl fun j hj => e j (under_left hj))
      (ihr fun j hj => e j (under_right hj)) hz hv

/-- The segments are halved, rounded up: `d` levels are enough for `2 ^ d` elements. -/
theorem Holds.depth_le {h : List (RNode V U)} {i a b B} (r : Holds X h i a b B) : ∀ {d}, b + 1 - a ≤ 2 ^ d → B.depth ≤ d := by
  induction r with
  | leaf => intro d _; simp [Br.depth]
  | node hab hn hs he hi hl hr hz hv ihl ihr =>
    intro d hd
    cases d with
    | zero => simp at hd; omega
    | succ d =>
      rw [Nat.pow_succ] at hd
      have h1 := ihl (d := d) (by omega)
      have h2 := ihr (d := d) (by omega)
      simp only [Br.depth]
      omega

/-! ### Slices of appended lists -/

theorem slice_append_left {xs ys : List V} {s e : Nat} (h : e < xs.length) : slice (xs ++ ys) s e = slice xs s e := by
  unfold slice
  by_cases hs : s ≤ xs.length
  · rw [List.drop_append_of_le_length hs, List.take_append_of_le_length (by simp; omega)]
  · rw [show e + 1 - s = 0 by omega]; simp

theorem slice_append_right {xs ys : List V} {s e : Nat} (h : xs.length ≤ s) (he : s ≤ e) :
    slice (xs ++ ys) s e = slice ys (s - xs.length) (e - xs.length) := by
  unfold slice
  rw [List.drop_append, List.drop_eq_nil_of_le h, List.nil_append, show e + 1 - s = e - xs.length + 1 - (s - xs.length) by omega]

theorem slice_append_both {xs ys : List V} {s e : Nat} (hs : s < xs.length) (h : xs.length ≤ e) :
    slice (xs ++ ys) s e = slice xs s (xs.length - 1) ++ slice ys 0 (e - xs.length) := by
  unfold slice
  rw [List.drop_append_of_le_length (Nat.le_of_lt hs), List.take_append, List.drop_zero, List.length_drop,
    List.take_of_length_le (l := List.drop s xs) (by simp; omega), List.take_of_length_le (l := List.drop s xs) (by simp; omega)]
  congr 2
  omega

/-! ### Queries -/

/-- A query changes nothing and returns the addressed elements in some brackets. -/
theorem Holds.query (fuel : Nat) : ∀ {h : List (RNode V U)} {i a b : Nat} {B : Br V}, Holds X h i a b B → ∀ {s e : Nat},
    a ≤ s → s ≤ e → e ≤ b → b - a < fuel →
    ∃ Q : Br V, rangeQuery X fuel s e i h = .ok (Q.eval X.join, h) ∧ Q.leaves = slice B.leaves (s - a) (e - a) ∧ Q.depth ≤ B.depth ∧
      Q = B.cut (s - a) (e - a) := by
  induction fuel with
  | zero => intros; omega
  | succ fuel ih =>
    intro h i a b B r s e has hse heb hf
    have hlen := r.length
    by_cases hfull : s = a ∧ e = b
    · obtain ⟨rfl, rfl⟩ := hfull
      obtain ⟨n, hn, hs, he, hi, hv, hz⟩ := r.root
      refine ⟨B, ?_, ?_, Nat.le_refl _, ?_⟩
      · unfold rangeQuery
        rw [rd_some hn]
        simp only [Res.bind_ok]
        rw [if_pos, hv]
        refine ⟨⟨hs, he.symm⟩, ?_⟩
        by_cases hlt : s < e
        · exact Or.inr (hz hlt)
        · exact Or.inl (by simp [RNode.leaf, hs, he]; omega)
      · rw [Nat.sub_self, slice_all (by omega)]
      · cases B with
        | leaf v => rfl
        | node l r =>
          simp only [Br.leaves, List.length_append] at hlen
          rw [Br.cut, if_pos ⟨Nat.sub_self _, by omega⟩]
    · cases r with
      | leaf => omega
      | @node _ _ _ n L R hab hn hs he hi hl hr hz hv =>
        have hll := hl.length
        have hrl := hr.length
        obtain ⟨l, l1, -, -, -, l5, -⟩ := hl.root
        obtain ⟨r, r1, -, -, -, r5, -⟩ := hr.root
        have hself : put h i { n with value := X.join l.value r.value } = h := by
          rw [l5, r5, ← hv]
          exact put_self hn
        have hcen : n.center = (a + b) / 2 := by rw [RNode.center, hs, he]
        have hnl : n.leaf = false := by simp [RNode.leaf, hs, he]; omega
        have step : ∀ v, ((s ≤ (a + b) / 2 ∧ e > (a + b) / 2 ∧ ∃ x y, rangeQuery X fuel s (min e ((a + b) / 2)) (2 * i + 1) h = .ok (x, h) ∧
              rangeQuery X fuel ((a + b) / 2 + 1) e (2 * i + 2) h = .ok (y, h) ∧ v = X.join x y) ∨
            (s ≤ (a + b) / 2 ∧ ¬ e > (a + b) / 2 ∧ rangeQuery X fuel s e (2 * i + 1) h = .ok (v, h)) ∨
            (¬ s ≤ (a + b) / 2 ∧ e > (a + b) / 2 ∧ rangeQuery X fuel s e (2 * i + 2) h = .ok (v, h))) →
            rangeQuery X (fuel + 1) s e i h = .ok (v, h) := by
          intro v hq
          rw [rangeQuery, rd_some hn]
          simp only [Res.bind_ok]
          rw [if_neg (by rw [hs, he]; rintro ⟨⟨h1, h2⟩, -⟩; exact hfull ⟨h1.symm, h2⟩), if_pos hnl, hi, leftOf_eq, rightOf_eq, hcen, hz,
            rd_some l1, rd_some r1]
          simp only [Res.bind_ok, Bool.false_eq_true, if_false]
          rcases hq with ⟨c1, c2, x, y, hx, hy, rfl⟩ | ⟨c1, c2, hx⟩ | ⟨c1, c2, hx⟩
          · rw [if_pos ⟨c1, c2⟩, hx]
            simp only [Res.bind_ok]
            rw [hy]
            simp only [Res.bind_ok]
            rw [rd_some hn, rd_some l1, rd_some r1]
            simp only [Res.bind_ok]
            rw [hself]
          · rw [if_neg (fun hc => c2 hc.2), if_pos c1, hx]
            simp only [Res.bind_ok]
            rw [rd_some hn, rd_some l1, rd_some r1]
            simp only [Res.bind_ok]
            rw [hself]
          · rw [if_neg (fun hc => c1 hc.1), if_neg c1, if_pos c2, hx]
            simp only [Res.bind_ok]
            rw [rd_some hn, rd_some l1, rd_some r1]
            simp only [Res.bind_ok]
            rw [hself]
        by_cases c1 : s ≤ (a + b) / 2
        · by_cases c2 : e > (a + b) / 2
          · obtain ⟨Q1, q1, q2, q3, q4⟩ := ih hl (s := s) (e := (a + b) / 2) has c1 (Nat.le_refl _) (by omega)
            obtain ⟨Q2, w1, w2, w3, w4⟩ := ih hr (s := (a + b) / 2 + 1) (e := e) (Nat.le_refl _) c2 heb (by omega)
            refine ⟨.node Q1 Q2, step _ ?_, ?_, ?_, ?_⟩
            · exact Or.inl ⟨c1, c2, _, _, by rw [Nat.min_eq_right (Nat.le_of_lt c2)]; exact q1, w1, rfl⟩
            · simp only [Br.leaves]
              rw [slice_append_both (by omega) (by omega), q2, w2, Nat.sub_self]
              congr 2 <;> omega
            · simp only [Br.depth]; omega
            · rw [Br.cut, if_neg (by omega), if_neg (by omega), if_neg (by omega), q4, w4, Nat.sub_self]
              congr 2 <;> omega
          · obtain ⟨Q, q1, q2, q3, q4⟩ := ih hl (s := s) (e := e) has hse (by omega) (by omega)
            refine ⟨Q, step _ ?_, ?_, ?_, ?_⟩
            · exact Or.inr (Or.inl ⟨c1, c2, q1⟩)
            · simp only [Br.leaves]
              rw [slice_append_left (by omega), q2]
            · simp only [Br.depth]; omega
            · rw [Br.cut, if_neg (by omega), if_pos (by omega), q4]
        · obtain ⟨Q, q1, q2, q3, q4⟩ := ih hr (s := s) (e := e) (by omega) hse heb (by omega)
          refine ⟨Q, step _ ?_, ?_, ?_, ?_⟩
          · exact Or.inr (Or.inr ⟨c1, by omega, q1⟩)
          · simp only [Br.leaves]
            rw [slice_append_right (by omega) (by omega), q2]
            congr 1 <;> omega
          · simp only [Br.depth]; omega
          · rw [Br.cut, if_neg (by omega), if_neg (by omega), if_pos (by omega), q4]
            congr 1 <;> omega

/-! ### Building -/

theorem buildNode_holds (hnone : X.has X.none = false) (input : List T) (fuel : Nat) :
    ∀ {h : List (RNode V U)} {i a b d : Nat} {n : RNode V U}, h[i]? = some n → n.start = a → n.stop = b → n.index = i →
    n.lazy = X.none → a ≤ b → b < input.length → b + 1 - a ≤ 2 ^ d → top (b + 1 - a) (i + 1) ≤ h.length → d < fuel →
    ∃ h' B, buildNode X input fuel i h = .ok h' ∧ Holds X h' i a b B ∧ B.leaves = buildFrom X a (slice input a b) ∧
      h'.length = h.length ∧ ∀ j, ¬ Under i j → h'[j]? = h[j]? := by
  induction fuel with
  | zero => intros; omega
  | succ fuel ih =>
    intro h i a b d n hn hs he hi hz hab hb hd hc hf
    have hlt := (List.getElem?_eq_some_iff.1 hn).1
    unfold buildNode
    rw [rd_some hn]
    simp only [Res.bind_ok]
    by_cases hlt' : a < b
    · rw [if_pos (by omega)]
      obtain ⟨d, rfl⟩ : ∃ d', d = d' + 1 := by
        cases d with
        | zero => simp at hd; omega
        | succ d => exact ⟨d, rfl⟩
      rw [hi, leftOf_eq, rightOf_eq]
      obtain ⟨hcapl, hcap, -⟩ := top_split (n := b + 1 - a) (i + 1) (by omega)
      replace hcapl : top ((a + b) / 2 + 1 - a) (2 * i + 1 + 1) ≤ h.length := by
        rw [show (a + b) / 2 + 1 - a = (b + 1 - a + 1) / 2 by omega]; exact Nat.le_trans hcapl hc
      replace hcap : top (b + 1 - ((a + b) / 2 + 1)) (2 * i + 2 + 1) ≤ h.length := by
        rw [show b + 1 - ((a + b) / 2 + 1) = (b + 1 - a) / 2 by omega]; exact Nat.le_trans hcap hc
      have hr : 2 * i + 2 < h.length := by
        have h1 := top_ge (b + 1 - ((a + b) / 2 + 1)) (2 * i + 2 + 1)
        have h2 : 1 * (2 * i + 2 + 1) ≤ (b + 1 - ((a + b) / 2 + 1)) * (2 * i + 2 + 1) := Nat.mul_le_mul_right _ (by omega)
        omega
      have hl : 2 * i + 1 < h.length := by omega
      rw [rd_lt hl, rd_lt hr]
      simp only [Res.bind_ok]
      have hcen : n.center = (a + b) / 2 := by rw [RNode.center, hs, he]
      rw [hcen]
      generalize hL : ({ h[2 * i + 1] with start := n.start, stop := (a + b) / 2, index := 2 * i + 1, lazy := X.none } :
        RNode V U) = l1
      generalize hR : ({ h[2 * i + 2] with start := (a + b) / 2 + 1, stop := n.stop, index := 2 * i + 2, lazy := X.none } :
        RNode V U) = r1
      have hp2 : 2 ^ (d + 1) = 2 * 2 ^ d := by rw [Nat.pow_succ, Nat.mul_comm]
      obtain ⟨h2, B1, w1, w2, w3, w4, w5⟩ := ih (h := put (put h (2 * i + 1) l1) (2 * i + 2) r1) (i := 2 * i + 1) (a := a)
        (b := (a + b) / 2) (d := d) (n := l1) (by simp [put, hl]) (by rw [← hL]; exact hs) (by rw [← hL])
        (by rw [← hL]) (by rw [← hL]) (by omega) (by omega) (by omega) (by simpa [put] using hcapl) (by omega)
      obtain ⟨h3, B2, y1, y2, y3, y4, y5⟩ := ih (h := h2) (i := 2 * i + 2) (a := (a + b) / 2 + 1) (b := b) (d := d) (n := r1)
        (by rw [w5 _ (fun hu => under_disjoint hu (under_self _))]; simp [put, hr]) (by rw [← hR])
        (by rw [← hR]; exact he)
        (by rw [← hR]) (by rw [← hR]) (by omega) (by omega) (by omega) (by rw [w4]; simpa [put] using hcap) (by omega)
      rw [w1]; simp only [Res.bind_ok]
      rw [y1]; simp only [Res.bind_ok]
      have nul : ¬ Under (2 * i + 1) i := fun hu => by have := hu.le; omega
      have nur : ¬ Under (2 * i + 2) i := fun hu => by have := hu.le; omega
      have hn3 : h3[i]? = some n := by
        rw [y5 i nur, w5 i nul]
        simp only [put, List.getElem?_set, if_neg (show ¬ 2 * i + 2 = i by omega), if_neg (show ¬ 2 * i + 1 = i by omega)]
        exact hn
      have w2' := w2.frame (h' := h3) fun j hj => y5 j fun hu => under_disjoint hj hu
      obtain ⟨l, a1, a2, a3, a4, a5, -⟩ := w2'.root
      obtain ⟨r, b1, b2, b3, b4, b5, -⟩ := y2.root
      have hlt3 := (List.getElem?_eq_some_iff.1 hn3).1
      rw [rd_some hn3, rd_some a1, rd_some b1]
      simp only [Res.bind_ok]
      have w4' : h2.length = h.length := by rw [w4]; simp [put]
      refine ⟨put h3 i { n with value := X.join l.value r.value }, .node B1 B2, rfl, ?_, ?_,
        by simp only [put, List.length_set]; omega, fun j hj => ?_⟩
      · refine .node hlt' (n := { n with value := X.join l.value r.value }) (by simp [put, hlt3]) hs he hi
          (w2'.frame ?_) (y2.frame ?_) (by show X.has n.lazy = false; rw [hz]; exact hnone) ?_
        · intro j hj
          have := hj.le
          simp only [put, List.getElem?_set, if_neg (show ¬ i = j by omega)]
        · intro j hj
          have := hj.le
          simp only [put, List.getElem?_set, if_neg (show ¬ i = j by omega)]
        · show X.join l.value r.value = _
          rw [a5, b5]
      · simp only [Br.leaves]
        rw [w3, y3, slice_split input (a := a) (m := (a + b) / 2) (b := b) (by omega) (by omega) hb, buildFrom_append,
          slice_len _ (by omega) (by omega), show a + ((a + b) / 2 + 1 - a) = (a + b) / 2 + 1 by omega]
      · have j0 : i ≠ j := by rintro rfl; exact hj (under_self _)
        have j1 : 2 * i + 1 ≠ j := by rintro rfl; exact hj (under_left (under_self _))
        have j2 : 2 * i + 2 ≠ j := by rintro rfl; exact hj (under_right (under_self _))
        simp only [put, List.getElem?_set, if_neg j0]
        rw [y5 j (fun hu => hj (under_right hu)), w5 j (fun hu => hj (under_left hu))]
        simp only [put, List.getElem?_set, if_neg j1, if_neg j2]
    · have e : a = b := by omega
      subst e
      rw [if_neg (by omega), show rd input n.start = .ok input[a] by rw [hs, rd_lt hb]]
      simp only [Res.bind_ok]
      have e2 : buildFrom X a (slice input a a) = [X.build input[a] n.start] := by
        unfold slice
        have : a + 1 - a = 1 := by omega
        rw [this, List.drop_eq_getElem_cons hb, hs]; rfl
      rw [e2]
      refine ⟨put h i { n with value := X.build input[a] n.start }, .leaf (X.build input[a] n.start), rfl,
        .leaf (n := { n with value := X.build input[a] n.start }) (by simp [put, hlt]) hs he hi, rfl, by simp [put], fun j hj => ?_⟩
      simp only [put, List.getElem?_set]
      rw [if_neg]
      rintro rfl
      exact hj (under_self _)

/-- The whole tree holds the expression. -/
structure THolds (X : Transform T V U) (t : SegT V U) (B : Br V) : Prop where
  built : t.built = true
  size : t.size = B.leaves.length
  pos : 0 < B.leaves.length
  bound : B.leaves.length ≤ W
  cap : B.leaves.length ≤ t.heap.length
  holds : Holds X t.heap 0 0 (B.leaves.length - 1) B

theorem build_holds (hnone : X.has X.none = false) {need : Nat → Nat} (hneed : Roomy need)
    (t : SegT V U) (input : List T) (number : Nat) (hb : input.length ≤ W) (hne : input.take number ≠ []) :
    ∃ t' B, build X need t input number = .ok t' ∧ THolds X t' B ∧ B.leaves = (input.take number).mapIdx fun p x => X.build x p := by
  have hlen : (input.take number).length = min number input.length := by simp
  have hpos : 0 < min number input.length := by
    rw [← hlen]; exact List.length_pos_iff.2 hne
  have hsize : (if number < input.length then number else input.length) = min number input.length := by
    split <;> omega
  unfold build
  simp only [hsize]
  generalize hn : min number input.length = n at *
  have hnd := hneed n hpos (by omega)
  obtain ⟨d, d1, d2⟩ := exists_depth n hpos
  have hd : d < n := by
    by_contra hc
    have h1 : 2 ^ n ≤ 2 ^ d := Nat.pow_le_pow_right (by omega) (by omega)
    have h2 : n - 1 < 2 ^ (n - 1) := Nat.lt_two_pow_self
    have h3 : 2 ^ n = 2 * 2 ^ (n - 1) := by rw [Nat.mul_comm, ← Nat.pow_succ]; congr 1; omega
    omega
  have htop := top_ge n 1
  generalize hh : (if t.heap.length < need n then resize (dfltNode X) t.heap (need n) else t.heap) = h
  have hhl : h.length = max t.heap.length (need n) := by
    rw [← hh]; split
    · simp [resize]; omega
    · omega
  have h0 : 0 < h.length := by omega
  rw [if_pos (by omega)]
  unfold wrAt
  rw [if_pos h0]
  simp only [Res.bind_ok]
  obtain ⟨h', B, b1, b2, b3, b4, -⟩ := buildNode_holds hnone input (h.set 0 ⟨0, n - 1, 0, X.dflt, X.none⟩).length
    (h := h.set 0 ⟨0, n - 1, 0, X.dflt, X.none⟩) (i := 0) (a := 0) (b := n - 1) (d := d)
    (n := ⟨0, n - 1, 0, X.dflt, X.none⟩) (by simp [h0]) rfl rfl rfl rfl (by omega) (by omega) (by omega)
    (by simp only [List.length_set]; rw [show n - 1 + 1 - 0 = n by omega, Nat.zero_add]; omega) (by simp only [List.length_set]; omega)
  rw [b1]
  simp only [Res.bind_ok]
  have e : slice input 0 (n - 1) = input.take number := by
    unfold slice
    have e1 : n - 1 + 1 - 0 = n := by omega
    rw [e1, List.drop_zero, ← hn]
    by_cases c : number ≤ input.length
    · rw [Nat.min_eq_left c]
    · rw [Nat.min_eq_right (by omega), List.take_length, List.take_of_length_le (by omega)]
  rw [e, buildFrom_eq] at b3
  have l2 : B.leaves.length = n := by rw [b3]; simp [hn]
  refine ⟨_, B, rfl, ⟨rfl, l2.symm, by omega, by omega, ?_, by rw [l2]; exact b2⟩, b3⟩
  simp only [List.length_set] at b4
  show _ ≤ h'.length
  omega

theorem THolds.query {t : SegT V U} {B : Br V} (r : THolds X t B) (a b : Nat) :
    ∃ Q : Br V, Seg.query X t a b = .ok (Q.eval X.join, t) ∧ Q.leaves = slice B.leaves (lo B.leaves.length a b) (hi B.leaves.length a b) ∧
      (∀ d, B.leaves.length ≤ 2 ^ d → Q.depth ≤ d) ∧ Q = B.cut (lo B.leaves.length a b) (hi B.leaves.length a b) := by
  have h1 := r.pos
  have h2 := r.cap
  have h4 := r.bound
  have hlast : lastPos t = B.leaves.length - 1 := by
    unfold lastPos
    rw [r.size]
    have h3 : 0 < W := by decide
    have : B.leaves.length + W - 1 = (B.leaves.length - 1) + W := by omega
    rw [this, Nat.add_mod_right, Nat.mod_eq_of_lt (by omega)]
  obtain ⟨Q, q1, q2, q3, q4⟩ := Holds.query t.heap.length r.holds (s := lo B.leaves.length a b) (e := hi B.leaves.length a b)
    (Nat.zero_le _) (by unfold lo hi; omega) (by unfold hi; omega) (by omega)
  refine ⟨Q, ?_, q2, fun d hd => Nat.le_trans q3 (r.holds.depth_le (by omega)), q4⟩
  unfold Seg.query
  rw [if_neg (by simp [r.built]), hlast]
  simp only [Heap.head, rdAt_lt (show 0 < t.heap.length by omega), Res.bind_ok]
  have : rangeQuery X t.heap.length (min (min a b) (B.leaves.length - 1)) (min (max a b) (B.leaves.length - 1)) 0 t.heap = _ := q1
  rw [this]
  rfl

end Verif.Seg
