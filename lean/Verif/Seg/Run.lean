import Verif.Seg.Lemmas
import Mathlib.Tactic.ByContra

/-! Building and histories of calls. -/

namespace Verif.Seg
open Spec Verif.Heap
set_option linter.unusedSectionVars false
variable {T V U : Type} {X : Transform T V U} {P : U → Prop} {act : U → Nat → Nat → V → V}

def buildFrom (X : Transform T V U) : Nat → List T → List V
  | _, [] => []
  | a, x :: xs => X.build x a :: buildFrom X (a + 1) xs

theorem buildFrom_append (xs ys : List T) :
    ∀ a, buildFrom X a (xs ++ ys) = buildFrom X a xs ++ buildFrom X (a + xs.length) ys := by
  induction xs with
  | nil => intro a; simp [buildFrom]
  | cons v vs ih => intro a; simp [buildFrom, ih]; congr 1; omega

@[simp] theorem buildFrom_length (xs : List T) : ∀ a, (buildFrom X a xs).length = xs.length := by
  induction xs with
  | nil => intro a; rfl
  | cons v vs ih => intro a; simp [buildFrom, ih]

theorem buildFrom_getElem? (xs : List T) : ∀ a k, (buildFrom X a xs)[k]? = (xs[k]?).map (fun x => X.build x (a + k)) := by
  induction xs with
  | nil => intro a k; simp [buildFrom]
  | cons v vs ih =>
    intro a k
    cases k with
    | zero => simp [buildFrom]
    | succ k =>
      simp only [buildFrom, List.getElem?_cons_succ, ih]
      congr 1; funext x; congr 1; omega

theorem buildFrom_eq (xs : List T) : buildFrom X 0 xs = xs.mapIdx fun p x => X.build x p := by
  apply List.ext_getElem?
  intro k
  rw [buildFrom_getElem?, List.getElem?_mapIdx]
  simp

theorem slice_split (xs : List T) {a m b : Nat} (h1 : a ≤ m) (h2 : m < b) (h3 : b < xs.length) :
    slice xs a b = slice xs a m ++ slice xs (m + 1) b := by
  unfold slice
  have e : b + 1 - a = (m + 1 - a) + (b + 1 - (m + 1)) := by omega
  rw [e, List.take_add, List.drop_drop]
  congr 3; omega

theorem slice_len (xs : List T) {a b : Nat} (h1 : a ≤ b) (h2 : b < xs.length) : (slice xs a b).length = b + 1 - a := by
  unfold slice; simp; omega

/-- One more than the largest heap index used for `n` elements below heap index `q - 1`. -/
def top (n q : Nat) : Nat :=
  if n ≤ 1 then q else max (top ((n + 1) / 2) (2 * q)) (top (n / 2) (2 * q + 1))
termination_by n

theorem top_one {n : Nat} (q : Nat) (h : n ≤ 1) : top n q = q := by rw [top, if_pos h]

theorem top_split {n : Nat} (q : Nat) (h : 2 ≤ n) :
    top ((n + 1) / 2) (2 * q) ≤ top n q ∧ top (n / 2) (2 * q + 1) ≤ top n q ∧
    (top n q = top ((n + 1) / 2) (2 * q) ∨ top n q = top (n / 2) (2 * q + 1)) := by
  rw [top.eq_1 n q, if_neg (by omega)]; omega

/-- A tree of depth `d`. -/
theorem top_depth (d : Nat) : ∀ n q, n ≤ 2 ^ d → top n q + 1 ≤ (q + 1) * 2 ^ d := by
  induction d with
  | zero => intro n q h; rw [top_one q (by simpa using h)]; simp
  | succ d ih =>
    intro n q h
    have hp : 2 ^ (d + 1) = 2 * 2 ^ d := by rw [Nat.pow_succ, Nat.mul_comm]
    have hp0 : 0 < 2 ^ d := Nat.pow_pos (by omega)
    rw [hp, show (q + 1) * (2 * 2 ^ d) = (2 * q + 1 + 1) * 2 ^ d by rw [← Nat.mul_assoc]; congr 1; omega]
    by_cases h1 : n ≤ 1
    · rw [top_one q h1]
      have : (2 * q + 1 + 1) * 1 ≤ (2 * q + 1 + 1) * 2 ^ d := Nat.mul_le_mul_left _ hp0
      omega
    · have hl := ih ((n + 1) / 2) (2 * q) (by omega)
      have hr := ih (n / 2) (2 * q + 1) (by omega)
      have hm : (2 * q + 1) * 2 ^ d ≤ (2 * q + 1 + 1) * 2 ^ d := Nat.mul_le_mul_right _ (by omega)
      have := (top_split q (n := n) (by omega)).2.2
      omega

theorem top_ge (n : Nat) : ∀ q, n * q ≤ top n q := by
  induction n using Nat.strongRecOn with
  | _ n ih =>
    intro q
    by_cases h1 : n ≤ 1
    · rw [top_one q h1]
      have : n * q ≤ 1 * q := Nat.mul_le_mul_right _ h1
      omega
    · have hl := ih ((n + 1) / 2) (by omega) (2 * q)
      have := (top_split q (n := n) (by omega)).1
      have h2 : n * q ≤ (n + 1) / 2 * (2 * q) := by
        rw [← Nat.mul_assoc]; exact Nat.mul_le_mul_right _ (by omega)
      omega

/-- Just above a power of two the last subtrees of depth `k - j` stay one level short. -/
theorem top_near (j : Nat) : ∀ k n q, j ≤ k → 2 ^ k ≤ n → n < 2 ^ k + 2 ^ j → 0 < q →
    top n q + 1 + 2 ^ (k - j + 1) ≤ (q + 1) * 2 ^ (k + 1) := by
  induction j with
  | zero =>
    intro k n q _ h1 h2 hq
    have := top_depth k n q (by simp at h2; omega)
    have hm : 2 * 2 ^ k ≤ (q + 1) * 2 ^ k := Nat.mul_le_mul_right _ (by omega)
    have e1 : (q + 1) * 2 ^ (k + 1) = (q + 1) * 2 ^ k + (q + 1) * 2 ^ k := by
      rw [Nat.pow_succ, ← Nat.mul_assoc, Nat.mul_two]
    have e2 : 2 ^ (k - 0 + 1) = 2 * 2 ^ k := by rw [Nat.sub_zero, Nat.pow_succ, Nat.mul_comm]
    omega
  | succ j ih =>
    intro k n q hjk h1 h2 hq
    obtain ⟨k, rfl⟩ : ∃ k', k = k' + 1 := ⟨k - 1, by omega⟩
    have hk : 2 ^ (k + 1) = 2 * 2 ^ k := by rw [Nat.pow_succ, Nat.mul_comm]
    have hj : 2 ^ (j + 1) = 2 * 2 ^ j := by rw [Nat.pow_succ, Nat.mul_comm]
    have hjk' : 2 ^ j ≤ 2 ^ k := Nat.pow_le_pow_right (by omega) (by omega)
    have hk0 : 0 < 2 ^ k := Nat.pow_pos (by omega)
    have hr := ih k (n / 2) (2 * q + 1) (by omega) (by omega) (by omega) (by omega)
    have hl := top_depth (k + 1) ((n + 1) / 2) (2 * q) (by omega)
    have hd : 2 ^ (k - j + 1) ≤ 2 ^ (k + 1) := Nat.pow_le_pow_right (by omega) (by omega)
    have e1 : (q + 1) * 2 ^ (k + 1 + 1) = (2 * q + 1 + 1) * 2 ^ (k + 1) := by
      rw [Nat.pow_succ, Nat.mul_comm (2 ^ (k + 1)) 2, ← Nat.mul_assoc]; congr 1; omega
    have e2 : (2 * q + 1 + 1) * 2 ^ (k + 1) = (2 * q + 1) * 2 ^ (k + 1) + 2 ^ (k + 1) := by
      rw [Nat.add_mul (2 * q + 1) 1, Nat.one_mul]
    rw [e1, show k + 1 - (j + 1) = k - j by omega]
    have := (top_split q (n := n) (by omega)).2.2
    omega

/-- The cells used stay below `4 n` by a margin that grows with the square root of `n`. -/
theorem top_margin (n : Nat) (h : 0 < n) : ∃ g, top n 1 + g = 4 * n ∧ 8 * n ≤ g * g ∧ 3 ≤ g := by
  obtain ⟨k, hk1, hk2⟩ : ∃ k, 2 ^ k ≤ n ∧ n < 2 ^ (k + 1) :=
    ⟨Nat.log2 n, Nat.log2_self_le (by omega), Nat.lt_log2_self⟩
  have hk : 2 ^ (k + 1) = 2 * 2 ^ k := by rw [Nat.pow_succ, Nat.mul_comm]
  by_cases h0 : n = 2 ^ k
  · have := top_near 0 k n 1 (by omega) hk1 (by simp; omega) (by omega)
    rw [Nat.sub_zero] at this
    refine ⟨4 * n - top n 1, by omega, ?_, by omega⟩
    obtain ⟨g, hg⟩ : ∃ g, 4 * n - top n 1 = 2 * n + 1 + g := ⟨4 * n - top n 1 - (2 * n + 1), by omega⟩
    rw [hg]
    have : (2 * n + 1) * (2 * n + 1) ≤ (2 * n + 1 + g) * (2 * n + 1 + g) := Nat.mul_le_mul (by omega) (by omega)
    have h4 : 1 * n ≤ n * n := Nat.mul_le_mul_right _ h
    have h5 : (2 * n + 1) * (2 * n + 1) = 4 * (n * n) + 4 * n + 1 := by
      simp only [Nat.add_mul, Nat.mul_add, Nat.mul_one, Nat.one_mul, Nat.mul_assoc, Nat.mul_left_comm n 2 n]; omega
    by_cases h6 : n = 1
    · subst h6; omega
    · have : 2 * n ≤ n * n := Nat.mul_le_mul_right _ (by omega)
      omega
  · obtain ⟨i, hi1, hi2⟩ : ∃ i, 2 ^ i ≤ n - 2 ^ k ∧ n - 2 ^ k < 2 ^ (i + 1) :=
      ⟨Nat.log2 (n - 2 ^ k), Nat.log2_self_le (by omega), Nat.lt_log2_self⟩
    have hik : i < k := (Nat.pow_lt_pow_iff_right (a := 2) (by omega)).1 (by omega)
    have := top_near (i + 1) k n 1 (by omega) hk1 (by omega) (by omega)
    have hi : 2 ^ (i + 1) = 2 * 2 ^ i := by rw [Nat.pow_succ, Nat.mul_comm]
    have hki : 2 ^ (k - (i + 1) + 1) = 2 ^ (k - i) := by congr 1; omega
    have hprod : 2 ^ i * 2 ^ (k - i) = 2 ^ k := by rw [← Nat.pow_add]; congr 1; omega
    rw [hki, hk] at this
    clear hki
    have hp1 : 0 < 2 ^ (k - i) := Nat.pow_pos (by omega)
    have hp2 : 0 < 2 ^ i := Nat.pow_pos (by omega)
    refine ⟨4 * n - top n 1, by omega, ?_, by omega⟩
    have hge : 4 * 2 ^ i + 2 ^ (k - i) ≤ 4 * n - top n 1 := by omega
    generalize 4 * n - top n 1 = g at *
    have hsq := Nat.mul_le_mul hge hge
    generalize 2 ^ i = x at *
    generalize 2 ^ (k - i) = y at *
    have hxy : 16 * (x * y) ≤ (4 * x + y) * (4 * x + y) := by
      have e : (4 * x + y) * (4 * x + y) = 16 * (x * x) + 8 * (x * y) + y * y := by
        simp only [Nat.add_mul, Nat.mul_add, Nat.mul_assoc, Nat.mul_left_comm x 4 x, Nat.mul_left_comm y 4 x, Nat.mul_comm y x]
        omega
      rcases Nat.le_total (4 * x) y with hc | hc
      · obtain ⟨z, rfl⟩ := Nat.exists_eq_add_of_le hc
        rw [e]
        simp only [Nat.add_mul, Nat.mul_add, Nat.mul_assoc, Nat.mul_left_comm x 4 x, Nat.mul_left_comm z 4 x, Nat.mul_comm z x]
        omega
      · obtain ⟨z, hz⟩ := Nat.exists_eq_add_of_le hc
        have e2 : (4 * x) * (4 * x) = 16 * (x * x) := by simp only [Nat.mul_assoc, Nat.mul_left_comm x 4 x]; omega
        have e3 : 4 * x * y = 4 * (x * y) := Nat.mul_assoc ..
        rw [hz] at e2 e3
        rw [e]
        simp only [Nat.add_mul, Nat.mul_add, Nat.mul_comm z y] at e2 e3
        omega
    rw [hprod] at hxy
    omega

theorem buildNode_spec (hnone : X.has X.none = false) (hP : P X.none)
    (assoc : ∀ x y z, X.join (X.join x y) z = X.join x (X.join y z)) (input : List T) (fuel : Nat) :
    ∀ {h : List (RNode V U)} {i a b d : Nat} {n : RNode V U}, h[i]? = some n → n.start = a → n.stop = b → n.index = i →
    n.lazy = X.none → a ≤ b → b < input.length → b + 1 - a ≤ 2 ^ d → top (b + 1 - a) (i + 1) ≤ h.length → d < fuel →
    ∃ h', buildNode X input fuel i h = .ok h' ∧ Rep X P act h' i a b (buildFrom X a (slice input a b)) ∧
      (∃ n', h'[i]? = some n' ∧ n'.lazy = X.none) ∧
      h'.length = h.length ∧ ∀ j, ¬ Under i j → h'[j]? = h[j]? := by
  induction fuel with
  | zero => intros; omega
  | succ fuel ih =>
    intro h i a b d n hn hs he hi hz hab hb hd hc hf
    have hlt := (List.getElem?_eq_some_iff.1 hn).1
    unfold buildNode
    rw [rd_some hn]
    simp only [Res.bind_ok]
    by_cases hlt' : a < b
    · rw [if_pos (by omega)]
      obtain ⟨d, rfl⟩ : ∃ d', d = d' + 1 := by
        cases d with
        | zero => simp at hd; omega
        | succ d => exact ⟨d, rfl⟩
      rw [hi, leftOf_eq, rightOf_eq]
      obtain ⟨hcapl, hcap, -⟩ := top_split (n := b + 1 - a) (i + 1) (by omega)
      replace hcapl : top ((a + b) / 2 + 1 - a) (2 * i + 1 + 1) ≤ h.length := by
        rw [show (a + b) / 2 + 1 - a = (b + 1 - a + 1) / 2 by omega]; exact Nat.le_trans hcapl hc
      replace hcap : top (b + 1 - ((a + b) / 2 + 1)) (2 * i + 2 + 1) ≤ h.length := by
        rw [show b + 1 - ((a + b) / 2 + 1) = (b + 1 - a) / 2 by omega]; exact Nat.le_trans hcap hc
      have hr : 2 * i + 2 < h.length := by
        have h1 := top_ge (b + 1 - ((a + b) / 2 + 1)) (2 * i + 2 + 1)
        have h2 : 1 * (2 * i + 2 + 1) ≤ (b + 1 - ((a + b) / 2 + 1)) * (2 * i + 2 + 1) := Nat.mul_le_mul_right _ (by omega)
        omega
      have hl : 2 * i + 1 < h.length := by omega
      rw [rd_lt hl, rd_lt hr]
      simp only [Res.bind_ok]
      have hcen : n.center = (a + b) / 2 := by rw [RNode.center, hs, he]
      rw [hcen]
      generalize hL : ({ h[2 * i + 1] with start := n.start, stop := (a + b) / 2, index := 2 * i + 1, lazy := X.none } :
        RNode V U) = l1
      generalize hR : ({ h[2 * i + 2] with start := (a + b) / 2 + 1, stop := n.stop, index := 2 * i + 2, lazy := X.none } :
        RNode V U) = r1
      have hp2 : 2 ^ (d + 1) = 2 * 2 ^ d := by rw [Nat.pow_succ, Nat.mul_comm]
      -- left
      obtain ⟨h2, w1, w2, w3, w4, w5⟩ := ih (h := put (put h (2 * i + 1) l1) (2 * i + 2) r1) (i := 2 * i + 1) (a := a)
        (b := (a + b) / 2) (d := d) (n := l1) (by simp [put, hl]) (by rw [← hL]; exact hs) (by rw [← hL])
        (by rw [← hL]) (by rw [← hL]) (by omega) (by omega) (by omega) (by simpa [put] using hcapl) (by omega)
      -- right
      obtain ⟨h3, y1, y2, y3, y4, y5⟩ := ih (h := h2) (i := 2 * i + 2) (a := (a + b) / 2 + 1) (b := b) (d := d) (n := r1)
        (by rw [w5 _ (fun hu => under_disjoint hu (under_self _))]; simp [put, hr]) (by rw [← hR])
        (by rw [← hR]; exact he)
        (by rw [← hR]) (by rw [← hR]) (by omega) (by omega) (by omega) (by rw [w4]; simpa [put] using hcap) (by omega)
      rw [w1]; simp only [Res.bind_ok]
      rw [y1]; simp only [Res.bind_ok]
      have nul : ¬ Under (2 * i + 1) i := fun hu => by have := hu.le; omega
      have nur : ¬ Under (2 * i + 2) i := fun hu => by have := hu.le; omega
      have hn3 : h3[i]? = some n := by
        rw [y5 i nur, w5 i nul]
        simp only [put, List.getElem?_set, if_neg (show ¬ 2 * i + 2 = i by omega), if_neg (show ¬ 2 * i + 1 = i by omega)]
        exact hn
      have w2' := w2.frame (h' := h3) fun j hj => y5 j fun hu => under_disjoint hj hu
      obtain ⟨l, a1, a2, a3, a4, a5⟩ := w2'.root
      obtain ⟨r, b1, b2, b3, b4, b5⟩ := y2.root
      have hlt3 := (List.getElem?_eq_some_iff.1 hn3).1
      rw [rd_some hn3, rd_some a1, rd_some b1]
      simp only [Res.bind_ok]
      have hpd : ∀ p v, pend X act n.lazy p p v = v := by
        intro p v; unfold pend; rw [hz, hnone]; simp
      have w4' : h2.length = h.length := by rw [w4]; simp [put]
      refine ⟨put h3 i { n with value := X.join l.value r.value }, rfl, ?_,
        ⟨{ n with value := X.join l.value r.value }, by simp [put, hlt3], hz⟩,
        by simp only [put, List.length_set]; omega, fun j hj => ?_⟩
      · refine .node hlt' (n := { n with value := X.join l.value r.value }) (by simp [put, hlt3]) hs he hi
          (w2'.frame ?_) (y2.frame ?_) (by rw [hz]; exact hP) ?_ ?_
        · intro j hj
          have := hj.le
          simp only [put, List.getElem?_set, if_neg (show ¬ i = j by omega)]
        · intro j hj
          have := hj.le
          simp only [put, List.getElem?_set, if_neg (show ¬ i = j by omega)]
        · rw [mapFrom_congr (g' := fun _ v => v) _ _ (fun p v _ _ => hpd p v), mapFrom_id,
            slice_split input (a := a) (m := (a + b) / 2) (b := b) (by omega) (by omega) hb, buildFrom_append,
            slice_len _ (by omega) (by omega), show a + ((a + b) / 2 + 1 - a) = (a + b) / 2 + 1 by omega]
        · show X.join l.value r.value = _
          rw [a5, b5, slice_split input (a := a) (m := (a + b) / 2) (b := b) (by omega) (by omega) hb, buildFrom_append,
            slice_len _ (by omega) (by omega), show a + ((a + b) / 2 + 1 - a) = (a + b) / 2 + 1 by omega,
            joinAll_append _ _ assoc _ _ w2.ne_nil y2.ne_nil]
      · have j0 : i ≠ j := by rintro rfl; exact hj (under_self _)
        have j1 : 2 * i + 1 ≠ j := by rintro rfl; exact hj (under_left (under_self _))
        have j2 : 2 * i + 2 ≠ j := by rintro rfl; exact hj (under_right (under_self _))
        simp only [put, List.getElem?_set, if_neg j0]
        rw [y5 j (fun hu => hj (under_right hu)), w5 j (fun hu => hj (under_left hu))]
        simp only [put, List.getElem?_set, if_neg j1, if_neg j2]
    · have e : a = b := by omega
      subst e
      rw [if_neg (by omega), show rd input n.start = .ok input[a] by rw [hs, rd_lt hb]]
      simp only [Res.bind_ok]
      have e2 : buildFrom X a (slice input a a) = [X.build input[a] n.start] := by
        unfold slice
        have : a + 1 - a = 1 := by omega
        rw [this, List.drop_eq_getElem_cons hb, hs]; rfl
      rw [e2]
      refine ⟨put h i { n with value := X.build input[a] n.start }, rfl,
        .leaf (n := { n with value := X.build input[a] n.start }) (by simp [put, hlt]) hs he hi,
        ⟨{ n with value := X.build input[a] n.start }, by simp [put, hlt], hz⟩, by simp [put], fun j hj => ?_⟩
      simp only [put, List.getElem?_set]
      rw [if_neg]
      rintro rfl
      exact hj (under_self _)

theorem exists_depth (n : Nat) (h : 0 < n) : ∃ d, n ≤ 2 ^ d ∧ 2 ^ d ≤ 2 * n - 1 := by
  induction n with
  | zero => omega
  | succ n ih =>
    by_cases h0 : n = 0
    · subst h0; exact ⟨0, by simp, by simp⟩
    · obtain ⟨d, h1, h2⟩ := ih (by omega)
      by_cases h3 : n + 1 ≤ 2 ^ d
      · exact ⟨d, h3, by omega⟩
      · exact ⟨d + 1, by rw [Nat.pow_succ]; omega, by rw [Nat.pow_succ]; omega⟩

/-- The whole tree represents the element list `xs`. -/
structure TRep (X : Transform T V U) (P : U → Prop) (act : U → Nat → Nat → V → V) (t : SegT V U) (xs : List V) : Prop where
  built : t.built = true
  size : t.size = xs.length
  pos : 0 < xs.length
  bound : xs.length ≤ W
  cap : xs.length ≤ t.heap.length
  rep : Rep X P act t.heap 0 0 (xs.length - 1) xs

/-- The rounding of `minimum_required_size_for_head` leaves enough room. -/
def Roomy (need : Nat → Nat) : Prop := ∀ n, 0 < n → n ≤ W → top n 1 ≤ need n

theorem roomy_exact : Roomy exactNeed := by
  intro n h _
  obtain ⟨g, hg, -⟩ := top_margin n h
  unfold exactNeed; omega

theorem build_spec (hnone : X.has X.none = false) (hP : P X.none)
    (assoc : ∀ x y z, X.join (X.join x y) z = X.join x (X.join y z)) {need : Nat → Nat} (hneed : Roomy need)
    (t : SegT V U) (input : List T) (number : Nat) (hb : input.length ≤ W) (hne : input.take number ≠ []) :
    ∃ t', build X need t input number = .ok t' ∧
      TRep X P act t' ((input.take number).mapIdx fun p x => X.build x p) ∧
      t'.heap.length = max t.heap.length (need (min number input.length)) := by
  have hlen : (input.take number).length = min number input.length := by simp
  have hpos : 0 < min number input.length := by
    rw [← hlen]; exact List.length_pos_iff.2 hne
  have hsize : (if number < input.length then number else input.length) = min number input.length := by
    split <;> omega
  unfold build
  simp only [hsize]
  generalize hn : min number input.length = n at *
  have hnd := hneed n hpos (by omega)
  obtain ⟨d, d1, d2⟩ := exists_depth n hpos
  have hd : d < n := by
    by_contra hc
    have h1 : 2 ^ n ≤ 2 ^ d := Nat.pow_le_pow_right (by omega) (by omega)
    have h2 : n - 1 < 2 ^ (n - 1) := Nat.lt_two_pow_self
    have h3 : 2 ^ n = 2 * 2 ^ (n - 1) := by rw [Nat.mul_comm, ← Nat.pow_succ]; congr 1; omega
    omega
  have htop := top_ge n 1
  generalize hh : (if t.heap.length < need n then resize (dfltNode X) t.heap (need n) else t.heap) = h
  have hhl : h.length = max t.heap.length (need n) := by
    rw [← hh]; split
    · simp [resize]; omega
    · omega
  have h0 : 0 < h.length := by omega
  rw [if_pos (by omega)]
  unfold wrAt
  rw [if_pos h0]
  simp only [Res.bind_ok]
  obtain ⟨h', b1, b2, -, b4, -⟩ := buildNode_spec (act := act) hnone hP assoc input (h.set 0 ⟨0, n - 1, 0, X.dflt, X.none⟩).length
    (h := h.set 0 ⟨0, n - 1, 0, X.dflt, X.none⟩) (i := 0) (a := 0) (b := n - 1) (d := d)
    (n := ⟨0, n - 1, 0, X.dflt, X.none⟩) (by simp [h0]) rfl rfl rfl rfl (by omega) (by omega) (by omega)
    (by simp only [List.length_set]; rw [show n - 1 + 1 - 0 = n by omega, Nat.zero_add]; omega) (by simp only [List.length_set]; omega)
  rw [b1]
  simp only [Res.bind_ok]
  have e : slice input 0 (n - 1) = input.take number := by
    unfold slice
    have e1 : n - 1 + 1 - 0 = n := by omega
    rw [e1, List.drop_zero, ← hn]
    by_cases c : number ≤ input.length
    · rw [Nat.min_eq_left c]
    · rw [Nat.min_eq_right (by omega), List.take_length, List.take_of_length_le (by omega)]
  rw [e, buildFrom_eq] at b2
  have l2 : ((input.take number).mapIdx fun p x => X.build x p).length = n := by simp [hn]
  refine ⟨_, rfl, ⟨rfl, l2.symm, by omega, by omega, ?_, by rw [l2]; exact b2⟩, by simp only [List.length_set] at b4; exact b4.trans hhl⟩
  simp only [List.length_set] at b4
  show _ ≤ h'.length
  omega

theorem TRep.lastPos {t : SegT V U} {xs : List V} (r : TRep X P act t xs) : lastPos t = xs.length - 1 := by
  have h1 := r.pos
  have h2 := r.bound
  have h3 : 0 < W := by decide
  unfold Seg.lastPos
  rw [r.size]
  have : xs.length + W - 1 = (xs.length - 1) + W := by omega
  rw [this, Nat.add_mod_right, Nat.mod_eq_of_lt (by omega)]

theorem final_id (X : Transform T V U) (P : U → Prop) (act : U → Nat → Nat → V → V) (stp : RNode V U → Bool) :
    Final X P act stp (fun n => n) (fun _ v => v) :=
  ⟨fun n _ => ⟨rfl, rfl, rfl, rfl⟩,
    fun n vs h1 h2 h3 h4 h5 => ⟨rfl, rfl, rfl, by rw [mapFrom_id]; exact h5, h2, fun _ _ _ _ => rfl⟩⟩

theorem final_apply (L : Lawful X P act) {u : U} (hu : P u) (hh : X.has u = true) :
    Final X P act (fun n => !X.has n.lazy || X.criteria n) (fun n => X.apply n u) (fun p v => act u p p v) := by
  refine ⟨fun n h => ?_, fun n vs h1 h2 h3 h4 h5 => ?_⟩
  · obtain ⟨a1, a2, a3, a4⟩ := L.apply_value n u hu hh
    exact ⟨a1, a2, a3, by rw [a4, h]⟩
  · obtain ⟨a1, a2, a3, a4⟩ := L.apply_value n u hu hh
    obtain ⟨b1, b2⟩ := L.apply_lazy n u hu hh h2 h1 (by simpa using h3)
    refine ⟨a1, a2, a3, ?_, b1, b2⟩
    have hne : vs ≠ [] := by intro e; simp [e] at h4; omega
    rw [a4, h5, ← pend_joinAll L hu hh vs _ hne]
    congr 1; omega

theorem upd_id (s e a : Nat) (vs : List V) : upd (fun _ v => v) s e a vs = vs := by
  unfold upd
  rw [mapFrom_congr (g' := fun _ v => v) _ _ (fun p v _ _ => by simp), mapFrom_id]

theorem upd_eq_update (g : Nat → V → V) (s e : Nat) (vs : List V) : upd g s e 0 vs = update g vs s e := by
  unfold upd update
  rw [mapFrom_eq_mapIdx]

theorem query_spec (L : Lawful X P act) {t : SegT V U} {xs : List V} (r : TRep X P act t xs) (a b : Nat) :
    ∃ t', query X t a b = .ok (joinAll X.join X.dflt (slice xs (lo xs.length a b) (hi xs.length a b)), t') ∧
      TRep X P act t' xs ∧ t'.heap.length = t.heap.length := by
  have h1 := r.pos
  have h2 := r.cap
  unfold query
  rw [if_neg (by simp [r.built]), r.lastPos]
  simp only [Heap.head, rdAt_lt (show 0 < t.heap.length by omega), Res.bind_ok, rangeQuery_eq_walk]
  obtain ⟨h', w1, w2, w3, -⟩ := walk_spec L (final_id X P act (fun n => !X.has n.lazy)) t.heap.length r.rep
    (s := lo xs.length a b) (e := hi xs.length a b) (Nat.zero_le _) (by unfold lo hi; omega) (by unfold hi; omega) (by omega)
  rw [upd_id] at w1 w2
  have : walk X (fun n => !X.has n.lazy) (fun n => n) t.heap.length (min (min a b) (xs.length - 1))
      (min (max a b) (xs.length - 1)) 0 t.heap = _ := w1
  rw [this]
  exact ⟨_, rfl, ⟨r.built, r.size, r.pos, r.bound, by show _ ≤ h'.length; omega, w2⟩, w3⟩

theorem update_spec (L : Lawful X P act) {t : SegT V U} {xs : List V} (r : TRep X P act t xs) (a b : Nat) (u : U) (hu : P u) :
    let xs' := if X.has u then update (fun p v => act u p p v) xs (lo xs.length a b) (hi xs.length a b) else xs
    ∃ t', queryUpdate X t a b u = .ok (joinAll X.join X.dflt (slice xs' (lo xs.length a b) (hi xs.length a b)), t') ∧
      TRep X P act t' xs' ∧ t'.heap.length = t.heap.length := by
  intro xs'
  have h1 := r.pos
  have h2 := r.cap
  unfold queryUpdate
  rw [if_neg (by simp [r.built]), r.lastPos]
  simp only [Heap.head, rdAt_lt (show 0 < t.heap.length by omega), Res.bind_ok, rangeUpdate_eq_walk]
  have key : ∃ h', walk X (fun n => !X.has n.lazy || X.criteria n) (fun n => if X.has u then X.apply n u else n)
        t.heap.length (lo xs.length a b) (hi xs.length a b) 0 t.heap =
        .ok (joinAll X.join X.dflt (slice xs' (lo xs.length a b) (hi xs.length a b)), h') ∧
      Rep X P act h' 0 0 (xs.length - 1) xs' ∧ h'.length = t.heap.length := by
    by_cases hh : X.has u = true
    · obtain ⟨h', w1, w2, w3, -⟩ := walk_spec L (final_apply L hu hh) t.heap.length r.rep
        (s := lo xs.length a b) (e := hi xs.length a b) (Nat.zero_le _) (by unfold lo hi; omega) (by unfold hi; omega) (by omega)
      rw [upd_eq_update] at w1 w2
      have e : xs' = update (fun p v => act u p p v) xs (lo xs.length a b) (hi xs.length a b) := if_pos hh
      rw [e]
      refine ⟨h', ?_, w2, w3⟩
      simp only [hh, if_true]
      exact w1
    · obtain ⟨h', w1, w2, w3, -⟩ := walk_spec L (final_id X P act (fun n => !X.has n.lazy || X.criteria n))
        t.heap.length r.rep
        (s := lo xs.length a b) (e := hi xs.length a b) (Nat.zero_le _) (by unfold lo hi; omega) (by unfold hi; omega) (by omega)
      rw [upd_id] at w1 w2
      have e : xs' = xs := if_neg hh
      rw [e]
      refine ⟨h', ?_, w2, w3⟩
      simp only [hh]
      exact w1
  obtain ⟨h', w1, w2, w3⟩ := key
  have : walk X (fun n => !X.has n.lazy || X.criteria n) (fun n => if X.has u then X.apply n u else n)
      t.heap.length (min (min a b) (xs.length - 1)) (min (max a b) (xs.length - 1)) 0 t.heap = _ := w1
  rw [this]
  have len : xs'.length = xs.length := by
    simp only [xs']; split
    · simp [update]
    · rfl
  exact ⟨_, rfl, ⟨r.built, by rw [len]; exact r.size, by omega, by rw [len]; exact r.bound,
    by show _ ≤ h'.length; omega, by rw [len]; exact w2⟩, w3⟩

/-- Allowed calls: updates satisfying `P`, rebuilding from a non-empty vector. -/
def OpOk (P : U → Prop) : Op T U → Prop
  | .query _ _ => True
  | .update _ _ u => P u
  | .rebuild input number => input.length ≤ W ∧ input.take number ≠ []

theorem run_spec (L : Lawful X P act) {need : Nat → Nat} (hneed : Roomy need) (ops : List (Op T U)) :
    ∀ {t : SegT V U} {xs : List V}, TRep X P act t xs → (∀ op ∈ ops, OpOk P op) →
    ∃ t', run X need t ops = .ok (t', (specRun X act xs ops).2) ∧ TRep X P act t' (specRun X act xs ops).1 := by
  induction ops with
  | nil => intro t xs r _; exact ⟨t, rfl, r⟩
  | cons op ops ih =>
    intro t xs r hops
    have hrest : ∀ op ∈ ops, OpOk P op := fun op h => hops op (List.mem_cons_of_mem _ h)
    have hop := hops op List.mem_cons_self
    cases op with
    | query a b =>
      obtain ⟨t1, e1, r1, -⟩ := query_spec L r a b
      obtain ⟨t2, e2, r2⟩ := ih r1 hrest
      exact ⟨t2, by simp only [run, e1, Res.bind_ok, e2]; rfl, r2⟩
    | update a b u =>
      obtain ⟨t1, e1, r1, -⟩ := update_spec L r a b u hop
      obtain ⟨t2, e2, r2⟩ := ih r1 hrest
      exact ⟨t2, by simp only [run, e1, Res.bind_ok, e2]; rfl, r2⟩
    | rebuild input number =>
      obtain ⟨t1, e1, r1, -⟩ := build_spec (act := act) L.none_has L.none_P L.assoc hneed t input number hop.1 hop.2
      obtain ⟨t2, e2, r2⟩ := ih r1 hrest
      exact ⟨t2, by simp only [run, e1, Res.bind_ok, e2]; rfl, r2⟩

end Verif.Seg
