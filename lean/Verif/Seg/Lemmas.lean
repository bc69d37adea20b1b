import Verif.Seg.Spec

/-! Representation of an element list by the flat heap, and correctness of the recursive functions. -/

namespace Verif.Seg
open Spec Verif.Heap
set_option linter.unusedSectionVars false
variable {T V U : Type}

/-! ### Lists -/

def mapFrom (g : Nat → V → V) : Nat → List V → List V
  | _, [] => []
  | a, v :: vs => g a v :: mapFrom g (a + 1) vs

@[simp] theorem mapFrom_length (g : Nat → V → V) (vs : List V) : ∀ a, (mapFrom g a vs).length = vs.length := by
  induction vs with
  | nil => intro a; rfl
  | cons v vs ih => intro a; simp [mapFrom, ih]

theorem mapFrom_append (g : Nat → V → V) (xs ys : List V) :
    ∀ a, mapFrom g a (xs ++ ys) = mapFrom g a xs ++ mapFrom g (a + xs.length) ys := by
  induction xs with
  | nil => intro a; simp [mapFrom]
  | cons v vs ih => intro a; simp [mapFrom, ih]; congr 1; omega

theorem mapFrom_congr {g g' : Nat → V → V} (vs : List V) :
    ∀ a, (∀ p v, a ≤ p → p < a + vs.length → g p v = g' p v) → mapFrom g a vs = mapFrom g' a vs := by
  induction vs with
  | nil => intro a _; rfl
  | cons v vs ih =>
    intro a h
    simp only [mapFrom]
    rw [h a v (Nat.le_refl _) (by simp), ih (a + 1) (fun p v h1 h2 => h p v (by omega) (by simp; omega))]

theorem mapFrom_comp (g g' : Nat → V → V) (vs : List V) :
    ∀ a, mapFrom g a (mapFrom g' a vs) = mapFrom (fun p v => g p (g' p v)) a vs := by
  induction vs with
  | nil => intro a; rfl
  | cons v vs ih => intro a; simp [mapFrom, ih]

theorem mapFrom_id (vs : List V) : ∀ a, mapFrom (fun _ v => v) a vs = vs := by
  induction vs with
  | nil => intro a; rfl
  | cons v vs ih => intro a; simp [mapFrom, ih]

theorem mapFrom_getElem? (g : Nat → V → V) (vs : List V) :
    ∀ a k, (mapFrom g a vs)[k]? = (vs[k]?).map (g (a + k)) := by
  induction vs with
  | nil => intro a k; simp [mapFrom]
  | cons v vs ih =>
    intro a k
    cases k with
    | zero => simp [mapFrom]
    | succ k => simp only [mapFrom, List.getElem?_cons_succ, ih]; congr 2; omega

theorem mapFrom_eq_mapIdx (g : Nat → V → V) (vs : List V) : mapFrom g 0 vs = vs.mapIdx g := by
  apply List.ext_getElem?
  intro k
  rw [mapFrom_getElem?, List.getElem?_mapIdx]
  simp

theorem joinAll_append (j : V → V → V) (d : V) (assoc : ∀ x y z, j (j x y) z = j x (j y z)) (xs ys : List V)
    (hx : xs ≠ []) (hy : ys ≠ []) : joinAll j d (xs ++ ys) = j (joinAll j d xs) (joinAll j d ys) := by
  obtain ⟨x, xs, rfl⟩ := List.exists_cons_of_ne_nil hx
  obtain ⟨y, ys, rfl⟩ := List.exists_cons_of_ne_nil hy
  simp only [joinAll, List.cons_append, List.foldl_append, List.foldl_cons]
  generalize xs.foldl j x = z
  clear hx hy
  induction ys generalizing y with
  | nil => rfl
  | cons w ws ih => simp only [List.foldl_cons]; rw [assoc, ih]

/-- Slices of a concatenation. -/
theorem slice_left {xs ys : List V} {s e : Nat} (h : e < xs.length) : slice (xs ++ ys) s e = slice xs s e := by
  unfold slice
  rw [List.drop_append, List.take_append]
  have : (e + 1 - s) - (xs.drop s).length = 0 := by simp; omega
  rw [this]; simp

theorem slice_right {xs ys : List V} {s e : Nat} (h : xs.length ≤ s) (hs : s ≤ e) :
    slice (xs ++ ys) s e = slice ys (s - xs.length) (e - xs.length) := by
  unfold slice
  rw [List.drop_append, List.drop_of_length_le h]
  simp only [List.nil_append]
  congr 1; omega

theorem slice_both {xs ys : List V} {s e : Nat} (h1 : s < xs.length) (h2 : xs.length ≤ e) :
    slice (xs ++ ys) s e = slice xs s (xs.length - 1) ++ slice ys 0 (e - xs.length) := by
  unfold slice
  rw [List.drop_append, List.take_append]
  have h3 : s - xs.length = 0 := by omega
  rw [h3]
  simp only [List.drop_zero]
  congr 1
  · rw [List.take_of_length_le (by simp; omega), List.take_of_length_le (by simp; omega)]
  · congr 1; simp; omega

theorem slice_all {xs : List V} {e : Nat} (h : xs.length ≤ e + 1) : slice xs 0 e = xs := by
  unfold slice; rw [List.drop_zero, List.take_of_length_le (by omega)]

theorem slice_all_sub {xs : List V} {s e : Nat} (h0 : s = 0) (h : xs.length ≤ e + 1) : slice xs s e = xs := by
  subst h0; exact slice_all h

theorem slice_ne_nil {xs : List V} {s e : Nat} (h1 : s ≤ e) (h2 : s < xs.length) : slice xs s e ≠ [] := by
  unfold slice
  intro h
  have := congrArg List.length h
  simp at this
  omega

/-! ### Heap regions -/

/-- Cell `j` belongs to the subtree of cell `i`. -/
def Under (i j : Nat) : Prop := ∃ k, (j + 1) / 2 ^ k = i + 1

theorem under_self (i : Nat) : Under i i := ⟨0, by simp⟩

theorem under_left {i j : Nat} (h : Under (2 * i + 1) j) : Under i j := by
  obtain ⟨k, h⟩ := h
  exact ⟨k + 1, by rw [Nat.pow_succ, ← Nat.div_div_eq_div_mul, h]; omega⟩

theorem under_right {i j : Nat} (h : Under (2 * i + 2) j) : Under i j := by
  obtain ⟨k, h⟩ := h
  exact ⟨k + 1, by rw [Nat.pow_succ, ← Nat.div_div_eq_div_mul, h]; omega⟩

theorem Under.le {i j : Nat} (h : Under i j) : i ≤ j := by
  obtain ⟨k, h⟩ := h
  have := Nat.div_le_self (j + 1) (2 ^ k)
  omega

theorem under_disjoint {i j : Nat} (h1 : Under (2 * i + 1) j) (h2 : Under (2 * i + 2) j) : False := by
  obtain ⟨k, h1⟩ := h1
  obtain ⟨l, h2⟩ := h2
  rcases Nat.lt_trichotomy k l with h | h | h
  · obtain ⟨d, rfl⟩ := Nat.exists_eq_add_of_lt h
    rw [Nat.add_assoc, Nat.pow_add, ← Nat.div_div_eq_div_mul, h1] at h2
    have := Nat.div_le_self (2 * i + 1 + 1) (2 ^ (d + 1))
    omega
  · subst h; omega
  · obtain ⟨d, rfl⟩ := Nat.exists_eq_add_of_lt h
    rw [Nat.add_assoc, Nat.pow_add, ← Nat.div_div_eq_div_mul, h2, Nat.pow_succ',
      ← Nat.div_div_eq_div_mul] at h1
    have := Nat.div_le_self ((2 * i + 2 + 1) / 2) (2 ^ d)
    omega

theorem leftOf_eq (i : Nat) : leftOf i = 2 * i + 1 := by unfold leftOf; split <;> omega
theorem rightOf_eq (i : Nat) : rightOf i = 2 * i + 2 := by unfold rightOf; split <;> omega

/-! ### Representation -/

variable (X : Transform T V U) (P : U → Prop) (act : U → Nat → Nat → V → V)

/-- The subtree at cell `i` covers `[a, b]` and represents the element values `vs` (all marks in the subtree applied). -/
inductive Rep (h : List (RNode V U)) : Nat → Nat → Nat → List V → Prop
  | leaf {i a : Nat} {n : RNode V U} (hn : h[i]? = some n) (hs : n.start = a) (he : n.stop = a) (hi : n.index = i) :
    Rep h i a a [n.value]
  | node {i a b : Nat} {n : RNode V U} {ls rs vs : List V} (hab : a < b) (hn : h[i]? = some n) (hs : n.start = a)
    (he : n.stop = b) (hi : n.index = i) (hl : Rep h (2 * i + 1) a ((a + b) / 2) ls)
    (hr : Rep h (2 * i + 2) ((a + b) / 2 + 1) b rs) (hp : P n.lazy)
    (hvs : vs = mapFrom (fun p v => pend X act n.lazy p p v) a (ls ++ rs)) (hv : n.value = joinAll X.join X.dflt vs) :
    Rep h i a b vs

variable {X P act}

theorem Rep.le {h : List (RNode V U)} {i a b vs} (r : Rep X P act h i a b vs) : a ≤ b := by
  cases r <;> omega

theorem Rep.length {h : List (RNode V U)} {i a b vs} (r : Rep X P act h i a b vs) : vs.length = b + 1 - a := by
  induction r with
  | leaf => simp
  | node hab hn hs he hi hl hr hp hvs hv ihl ihr => subst hvs; simp [ihl, ihr]; omega

theorem Rep.ne_nil {h : List (RNode V U)} {i a b vs} (r : Rep X P act h i a b vs) : vs ≠ [] := by
  intro e
  have := r.length
  have := r.le
  simp [e] at *
  omega

theorem Rep.lt {h : List (RNode V U)} {i a b vs} (r : Rep X P act h i a b vs) : i < h.length := by
  cases r with
  | leaf hn => exact (List.getElem?_eq_some_iff.1 hn).1
  | node hab hn => exact (List.getElem?_eq_some_iff.1 hn).1

/-- The root cell of a represented subtree. -/
theorem Rep.root {h : List (RNode V U)} {i a b vs} (r : Rep X P act h i a b vs) :
    ∃ n, h[i]? = some n ∧ n.start = a ∧ n.stop = b ∧ n.index = i ∧ n.value = joinAll X.join X.dflt vs := by
  cases r with
  | leaf hn hs he hi => exact ⟨_, hn, hs, he, hi, rfl⟩
  | node hab hn hs he hi hl hr hp hvs hv => exact ⟨_, hn, hs, he, hi, hv⟩

/-- Frame: a representation depends only on the cells of its subtree. -/
theorem Rep.frame {h h' : List (RNode V U)} {i a b vs} (r : Rep X P act h i a b vs)
    (e : ∀ j, Under i j → h'[j]? = h[j]?) : Rep X P act h' i a b vs := by
  induction r with
  | leaf hn hs he hi => exact .leaf (by rw [e _ (under_self _)]; exact hn) hs he hi
  | node hab hn hs he hi hl hr hp hvs hv ihl ihr =>
    exact .node hab (by rw [e _ (under_self _)]; exact hn) hs he hi (ihl fun j hj => e j (under_left hj))
      (ihr fun j hj => e j (under_right hj)) hp hvs hv

theorem pend_joinAll (L : Lawful X P act) {u : U} (hu : P u) (hh : X.has u = true) (vs : List V) :
    ∀ a, vs ≠ [] → act u a (a + vs.length - 1) (joinAll X.join X.dflt vs) =
      joinAll X.join X.dflt (mapFrom (fun p v => act u p p v) a vs) := by
  induction vs with
  | nil => intro a h; exact absurd rfl h
  | cons v vs ih =>
    intro a _
    cases vs with
    | nil => simp [joinAll, mapFrom]
    | cons w ws =>
      have e1 : (v :: w :: ws) = [v] ++ (w :: ws) := rfl
      rw [e1, joinAll_append _ _ L.assoc _ _ (by simp) (by simp), mapFrom_append,
        joinAll_append _ _ L.assoc _ _ (by simp [mapFrom]) (by simp [mapFrom])]
      have h2 := L.act_join u a a (a + (w :: ws).length) (joinAll X.join X.dflt [v])
        (joinAll X.join X.dflt (w :: ws)) hu hh (Nat.le_refl _) (by simp)
      have e3 : a + ([v] ++ w :: ws).length - 1 = a + (w :: ws).length := by simp
      rw [e3, h2]
      have h4 := ih (a + 1) (by simp)
      have e5 : a + 1 + (w :: ws).length - 1 = a + (w :: ws).length := by omega
      rw [e5] at h4
      rw [h4]
      rfl

/-- Replacing the root cell by one on which an update `u` has acted. -/
theorem Rep.push (L : Lawful X P act) {h h' : List (RNode V U)} {i a b vs} (r : Rep X P act h i a b vs) {u : U}
    (hu : P u) (hh : X.has u = true) {c c' : RNode V U} (hc : h[i]? = some c) (hc' : h'[i]? = some c')
    (e : ∀ j, Under i j → j ≠ i → h'[j]? = h[j]?)
    (h1 : c'.start = c.start) (h2 : c'.stop = c.stop) (h3 : c'.index = c.index)
    (h4 : c'.value = act u c.start c.stop c.value)
    (h5 : c.start < c.stop → P c.lazy → P c'.lazy ∧ ∀ p v, c.start ≤ p → p ≤ c.stop →
          pend X act c'.lazy p p v = act u p p (pend X act c.lazy p p v)) :
    Rep X P act h' i a b (mapFrom (fun p v => act u p p v) a vs) := by
  have len := r.length
  have ne := r.ne_nil
  have le := r.le
  cases r with
  | leaf hn hs he hi =>
    rw [hn] at hc; injection hc with hc; subst hc
    rename_i n
    have : mapFrom (fun p v => act u p p v) a [n.value] = [c'.value] := by
      simp only [mapFrom]; rw [h4, hs, he]
    rw [this]
    exact .leaf hc' (h1.trans hs) (h2.trans he) (h3.trans hi)
  | node hab hn hs he hi hl hr hp hvs hv =>
    rw [hn] at hc; injection hc with hc; subst hc
    obtain ⟨p1, p2⟩ := h5 (by omega) hp
    refine .node hab hc' (h1.trans hs) (h2.trans he) (h3.trans hi)
      (hl.frame fun j hj => e j (under_left hj) (by have := hj.le; omega))
      (hr.frame fun j hj => e j (under_right hj) (by have := hj.le; omega)) p1 ?_ ?_
    · rw [hvs, mapFrom_comp]
      apply mapFrom_congr
      intro p v q1 q2
      have l1 := hl.length
      have l2 := hr.length
      simp only [List.length_append, l1, l2] at q2
      rw [p2 p v (by omega) (by omega)]
    · rw [h4, hs, he, hv, ← pend_joinAll L hu hh vs a ne]
      congr 1
      omega

/-! ### The recursive functions -/

/-- Common form of `rangeQuery` and `rangeUpdate`: `stp` stops at a matching inner node, `f` is done to the final nodes. -/
def walk (X : Transform T V U) (stp : RNode V U → Bool) (f : RNode V U → RNode V U) :
    Nat → Nat → Nat → Nat → List (RNode V U) → Res (V × List (RNode V U))
  | 0, _, _, _, _ => .ub
  | fuel + 1, start, stop, i, h => do
    let n ← rd h i
    if (n.start = start ∧ stop = n.stop) ∧ (n.leaf = true ∨ stp n = true) then
      .ok ((f n).value, put h i (f n))
    else if n.leaf = false then
      let center := n.center
      let li := leftOf n.index
      let ri := rightOf n.index
      let l ← rd h li
      let r ← rd h ri
      let h :=
        if X.has n.lazy then
          let (n', l', r') := X.propagate n l r
          put (put (put h i n') li l') ri r'
        else h
      let (value, h) ←
        if start ≤ center ∧ stop > center then do
          let (left, h) ← walk X stp f fuel start center li h
          let (right, h) ← walk X stp f fuel (center + 1) stop ri h
          Res.ok (X.join left right, h)
        else if start ≤ center then walk X stp f fuel start stop li h
        else if stop > center then walk X stp f fuel start stop ri h
        else Res.ub
      let n ← rd h i
      let l ← rd h li
      let r ← rd h ri
      .ok (value, put h i { n with value := X.join l.value r.value })
    else .ub

theorem rd_some {α} {l : List α} {i : Nat} {x : α} (h : l[i]? = some x) : rd l i = .ok x := by
  simp [rd, h]

theorem put_self {h : List (RNode V U)} {i n} (hn : h[i]? = some n) : put h i n = h := by
  unfold put
  apply List.ext_getElem?
  intro j
  rw [List.getElem?_set]
  split
  · next e => subst e; rw [hn]; simp [(List.getElem?_eq_some_iff.1 hn).1]
  · rfl

theorem rangeQuery_eq_walk (X : Transform T V U) (fuel : Nat) : ∀ s e i h,
    rangeQuery X fuel s e i h = walk X (fun n => !X.has n.lazy) (fun n => n) fuel s e i h := by
  induction fuel with
  | zero => intros; rfl
  | succ fuel ih =>
    intro s e i h
    unfold rangeQuery walk
    cases hr : rd h i with
    | exc x => rfl
    | ub => rfl
    | ok n =>
      have hn : h[i]? = some n := by
        unfold rd at hr; split at hr
        · next x hx => injection hr with hr; rw [hx, hr]
        · cases hr
      simp only [Res.bind_ok, put_self hn, Bool.not_eq_true', ih]
      split
      · rfl
      · split
        · by_cases hc : s ≤ n.center ∧ e > n.center
          · rw [Nat.min_eq_right (by omega)]
          · simp only [if_neg hc]
        · rfl

theorem rangeUpdate_eq_walk (X : Transform T V U) (u : U) (fuel : Nat) : ∀ s e i h,
    rangeUpdate X u fuel s e i h = walk X (fun n => !X.has n.lazy || X.criteria n)
      (fun n => if X.has u then X.apply n u else n) fuel s e i h := by
  induction fuel with
  | zero => intros; rfl
  | succ fuel ih =>
    intro s e i h
    unfold rangeUpdate walk
    simp only [ih, Bool.or_eq_true, Bool.not_eq_true']

/-- What the final action `f` must do: act on leaves and on matching inner nodes like `g` on the elements. -/
structure Final (X : Transform T V U) (P : U → Prop) (act : U → Nat → Nat → V → V) (stp : RNode V U → Bool)
    (f : RNode V U → RNode V U) (g : Nat → V → V) : Prop where
  leaf : ∀ n, n.start = n.stop → (f n).start = n.start ∧ (f n).stop = n.stop ∧ (f n).index = n.index ∧
    (f n).value = g n.start n.value
  inner : ∀ n vs, n.start < n.stop → P n.lazy → stp n = true → vs.length = n.stop + 1 - n.start →
    n.value = joinAll X.join X.dflt vs →
    (f n).start = n.start ∧ (f n).stop = n.stop ∧ (f n).index = n.index ∧
    (f n).value = joinAll X.join X.dflt (mapFrom g n.start vs) ∧ P (f n).lazy ∧
    ∀ p v, n.start ≤ p → p ≤ n.stop → pend X act (f n).lazy p p v = g p (pend X act n.lazy p p v)

/-- Elements after `g` on `[s, e]`. -/
def upd (g : Nat → V → V) (s e a : Nat) (vs : List V) : List V :=
  mapFrom (fun p v => if s ≤ p ∧ p ≤ e then g p v else v) a vs

@[simp] theorem upd_length (g : Nat → V → V) (s e a : Nat) (vs : List V) : (upd g s e a vs).length = vs.length := by
  simp [upd]

theorem upd_append (g : Nat → V → V) (s e a : Nat) (xs ys : List V) :
    upd g s e a (xs ++ ys) = upd g s e a xs ++ upd g s e (a + xs.length) ys := mapFrom_append _ _ _ _

theorem upd_outside (g : Nat → V → V) {s e a : Nat} {vs : List V} (h : e < a ∨ a + vs.length ≤ s) :
    upd g s e a vs = vs := by
  unfold upd
  rw [mapFrom_congr (g' := fun _ v => v) _ _ (fun p v h1 h2 => if_neg (by omega)), mapFrom_id]

theorem upd_all (g : Nat → V → V) {s e a : Nat} {vs : List V} (h1 : s ≤ a) (h2 : a + vs.length ≤ e + 1) :
    upd g s e a vs = mapFrom g a vs :=
  mapFrom_congr _ _ (fun p v h3 h4 => if_pos (by omega))

theorem upd_congr (g : Nat → V → V) {s e s' e' a : Nat} {vs : List V}
    (h : ∀ p, a ≤ p → p < a + vs.length → ((s ≤ p ∧ p ≤ e) ↔ (s' ≤ p ∧ p ≤ e'))) :
    upd g s e a vs = upd g s' e' a vs := by
  unfold upd
  apply mapFrom_congr
  intro p v h1 h2
  by_cases c : s ≤ p ∧ p ≤ e
  · rw [if_pos c, if_pos ((h p h1 h2).1 c)]
  · rw [if_neg c, if_neg (fun c' => c ((h p h1 h2).2 c'))]

/-- After the optional `propagate` the children represent the elements of the node. -/
theorem propagate_rep (L : Lawful X P act) {h : List (RNode V U)} {i a b : Nat} {n l r : RNode V U} {ls rs vs : List V}
    (hab : a < b) (hn : h[i]? = some n) (hs : n.start = a)
    (he : n.stop = b) (hi : n.index = i) (hl : Rep X P act h (2 * i + 1) a ((a + b) / 2) ls)
    (hr : Rep X P act h (2 * i + 2) ((a + b) / 2 + 1) b rs) (hp : P n.lazy)
    (hvs : vs = mapFrom (fun p v => pend X act n.lazy p p v) a (ls ++ rs))
    (hl' : h[2 * i + 1]? = some l) (hr' : h[2 * i + 2]? = some r) :
    ∃ h1 n1 ls' rs', (if X.has n.lazy then
          let (n', l', r') := X.propagate n l r
          put (put (put h i n') (2 * i + 1) l') (2 * i + 2) r'
        else h) = h1 ∧ h1.length = h.length ∧ (∀ j, ¬ Under i j → h1[j]? = h[j]?) ∧ h1[i]? = some n1 ∧
      n1.start = a ∧ n1.stop = b ∧ n1.index = i ∧ P n1.lazy ∧ (∀ p v, pend X act n1.lazy p p v = v) ∧
      Rep X P act h1 (2 * i + 1) a ((a + b) / 2) ls' ∧ Rep X P act h1 (2 * i + 2) ((a + b) / 2 + 1) b rs' ∧
      vs = ls' ++ rs' := by
  by_cases hh : X.has n.lazy = true
  · rw [if_pos hh]
    have ll := hl.lt
    have lr := hr.lt
    obtain ⟨l0, a1, a2, a3, a4, -⟩ := hl.root
    rw [hl'] at a1; injection a1 with a1; subst a1
    obtain ⟨r0, b1, b2, b3, b4, -⟩ := hr.root
    rw [hr'] at b1; injection b1 with b1; subst b1
    obtain ⟨n', l', r', e1, ⟨c1, c2, c3, c4, c5⟩, e2⟩ := L.propagate n l r hp hh (by omega) (by omega)
      (by rw [a3, RNode.center, hs, he]) (by rw [b2, RNode.center, hs, he]) (by omega)
    rw [e1]
    simp only
    have g : ∀ j : Nat, (put (put (put h i n') (2 * i + 1) l') (2 * i + 2) r')[j]? =
        if j = 2 * i + 2 then some r' else if j = 2 * i + 1 then some l' else if j = i then some n' else h[j]? := by
      intro j
      unfold put
      simp only [List.getElem?_set, List.length_set]
      by_cases j1 : j = 2 * i + 2
      · subst j1; simp [lr]
      · by_cases j2 : j = 2 * i + 1
        · subst j2; simp [ll]
        · by_cases j3 : j = i
          · subst j3
            rw [if_neg (by omega), if_neg (by omega), if_pos rfl, if_pos (List.getElem?_eq_some_iff.1 hn).1,
              if_neg (by omega), if_neg (by omega), if_pos rfl]
          · simp [j1, j2, j3, Ne.symm j1, Ne.symm j2, Ne.symm j3]
    refine ⟨_, n', mapFrom (fun p v => act n.lazy p p v) a ls,
      mapFrom (fun p v => act n.lazy p p v) ((a + b) / 2 + 1) rs, rfl, by simp [put], ?_, ?_, by omega, by omega, by omega, c4, c5, ?_, ?_, ?_⟩
    · intro j hj
      rw [g j, if_neg, if_neg, if_neg]
      · rintro rfl; exact hj (under_self _)
      · rintro rfl; exact hj (under_left (under_self _))
      · rintro rfl; exact hj (under_right (under_self _))
    · rw [g i, if_neg (by omega), if_neg (by omega), if_pos rfl]
    · obtain ⟨d1, d2, d3, d4, d5⟩ := e2 l l' (.inl ⟨rfl, rfl⟩)
      refine hl.push L hp hh hl' (by rw [g]; simp) (fun j hj hne => ?_) d1 d2 d3 d4 d5
      have := hj.le
      rw [g, if_neg, if_neg hne, if_neg (by omega)]
      rintro rfl
      exact under_disjoint hj (under_self _)
    · obtain ⟨d1, d2, d3, d4, d5⟩ := e2 r r' (.inr ⟨rfl, rfl⟩)
      refine hr.push L hp hh hr' (by rw [g]; simp) (fun j hj hne => ?_) d1 d2 d3 d4 d5
      have := hj.le
      rw [g, if_neg hne, if_neg, if_neg (by omega)]
      rintro rfl
      exact under_disjoint (under_self _) hj
    · have len := hl.length
      have e3 : a + ls.length = (a + b) / 2 + 1 := by omega
      have e4 : (fun p v => pend X act n.lazy p p v) = fun p v => act n.lazy p p v := by
        funext p v; unfold pend; rw [if_pos hh]
      rw [hvs, mapFrom_append, e3, e4]
  · rw [if_neg hh]
    have hpd : ∀ p v, pend X act n.lazy p p v = v := by intro p v; unfold pend; rw [if_neg hh]
    refine ⟨h, n, ls, rs, rfl, rfl, fun _ _ => rfl, hn, hs, he, hi, hp, hpd, hl, hr, ?_⟩
    rw [hvs, mapFrom_congr (g' := fun _ v => v) _ _ (fun p v _ _ => hpd p v), mapFrom_id]

/-- Re-joining a node whose children represent `ls` and `rs`. -/
theorem rejoin (L : Lawful X P act) {h : List (RNode V U)} {i a b : Nat} {n : RNode V U} {ls rs : List V}
    (hab : a < b) (hn : h[i]? = some n) (hs : n.start = a) (he : n.stop = b) (hi : n.index = i) (hp : P n.lazy)
    (hid : ∀ p v, pend X act n.lazy p p v = v)
    (hl : Rep X P act h (2 * i + 1) a ((a + b) / 2) ls) (hr : Rep X P act h (2 * i + 2) ((a + b) / 2 + 1) b rs) :
    ∃ l r h', h[2 * i + 1]? = some l ∧ h[2 * i + 2]? = some r ∧
      put h i { n with value := X.join l.value r.value } = h' ∧ Rep X P act h' i a b (ls ++ rs) ∧
      h'.length = h.length ∧ ∀ j, ¬ Under i j → h'[j]? = h[j]? := by
  obtain ⟨l, a1, a2, a3, a4, a5⟩ := hl.root
  obtain ⟨r, b1, b2, b3, b4, b5⟩ := hr.root
  have hlt := (List.getElem?_eq_some_iff.1 hn).1
  refine ⟨l, r, _, a1, b1, rfl, ?_, by simp [put], fun j hj => ?_⟩
  · refine .node hab (n := { n with value := X.join l.value r.value }) ?_ hs he hi (hl.frame ?_) (hr.frame ?_) hp ?_ ?_
    · simp [put, hlt]
    · intro j hj
      have := hj.le
      simp only [put, List.getElem?_set, if_neg (show ¬ i = j by omega)]
    · intro j hj
      have := hj.le
      simp only [put, List.getElem?_set, if_neg (show ¬ i = j by omega)]
    · rw [mapFrom_congr (g' := fun _ v => v) _ _ (fun p v _ _ => hid p v), mapFrom_id]
    · show X.join l.value r.value = _
      rw [joinAll_append _ _ L.assoc _ _ hl.ne_nil hr.ne_nil, a5, b5]
  · simp only [put, List.getElem?_set]
    rw [if_neg]
    rintro rfl
    exact hj (under_self _)

theorem walk_spec (L : Lawful X P act) {stp : RNode V U → Bool} {f : RNode V U → RNode V U} {g : Nat → V → V}
    (F : Final X P act stp f g) (fuel : Nat) : ∀ {h : List (RNode V U)} {i a b : Nat} {vs : List V} {s e : Nat},
    Rep X P act h i a b vs → a ≤ s → s ≤ e → e ≤ b → b - a < fuel →
    ∃ h', walk X stp f fuel s e i h =
        .ok (joinAll X.join X.dflt (slice (upd g s e a vs) (s - a) (e - a)), h') ∧
      Rep X P act h' i a b (upd g s e a vs) ∧ h'.length = h.length ∧ ∀ j, ¬ Under i j → h'[j]? = h[j]? := by
  induction fuel with
  | zero => intro h i a b vs s e _ _ _ _ hf; omega
  | succ fuel ih =>
    intro h i a b vs s e rep h1 h2 h3 hf
    have len := rep.length
    unfold walk
    cases rep with
    | leaf hn hs he hi =>
      rename_i n
      have es : s = a := by omega
      have ee : e = a := by omega
      subst es ee
      rw [rd_some hn]
      have hlf : n.leaf = true := by simp [RNode.leaf, hs, he]
      obtain ⟨f1, f2, f3, f4⟩ := F.leaf n (hs.trans he.symm)
      have hu : upd g e e e [n.value] = [(f n).value] := by simp [upd, mapFrom, f4, hs]
      simp only [Res.bind_ok, hs, he, hlf, true_or, and_self, if_true, hu]
      have hlt := (List.getElem?_eq_some_iff.1 hn).1
      refine ⟨put h i (f n), by simp [slice, joinAll], .leaf (by simp [put, hlt]) (by omega) (by omega) (by omega), by simp [put],
        fun j hj => ?_⟩
      simp only [put, List.getElem?_set]
      rw [if_neg]
      rintro rfl
      exact hj (under_self _)
    | node hab hn hs he hi hl hr hp hvs hv =>
      rename_i n ls rs
      rw [rd_some hn]
      simp only [Res.bind_ok]
      have hlf : n.leaf = false := by simp [RNode.leaf]; omega
      have hlt := (List.getElem?_eq_some_iff.1 hn).1
      by_cases c : (n.start = s ∧ e = n.stop) ∧ (n.leaf = true ∨ stp n = true)
      · rw [if_pos c]
        have hst : stp n = true := by simpa [hlf] using c.2
        have hall : upd g s e a vs = mapFrom g a vs := upd_all g (by omega) (by omega)
        obtain ⟨f1, f2, f3, f4, f5, f6⟩ := F.inner n vs (by omega) hp hst (by omega) hv
        rw [hs] at f4
        rw [hall, slice_all_sub (by omega) (by simp; omega)]
        refine ⟨_, by rw [f4], ?_, by simp [put], fun j hj => ?_⟩
        · refine .node hab (n := f n) (by simp [put, hlt]) (by omega) (by omega) (by omega)
            (hl.frame fun j hj => ?_) (hr.frame fun j hj => ?_) f5 ?_ f4
          · have := hj.le
            simp only [put, List.getElem?_set, if_neg (show ¬ i = j by omega)]
          · have := hj.le
            simp only [put, List.getElem?_set, if_neg (show ¬ i = j by omega)]
          · rw [hvs, mapFrom_comp]
            apply mapFrom_congr
            intro p v q1 q2
            have l1 := hl.length
            have l2 := hr.length
            simp only [List.length_append, l1, l2] at q2
            rw [f6 p v (by omega) (by omega)]
        · simp only [put, List.getElem?_set]
          rw [if_neg]
          rintro rfl
          exact hj (under_self _)
      · rw [if_neg c, if_pos hlf, hi, leftOf_eq, rightOf_eq]
        have hcen : n.center = (a + b) / 2 := by rw [RNode.center, hs, he]
        obtain ⟨l, hl', -⟩ := hl.root
        obtain ⟨r, hr', -⟩ := hr.root
        obtain ⟨hh1, n1, ls', rs', e1, e2, e3, e4, e5, e6, e7, e8, e9, e10, e11, e12⟩ :=
          propagate_rep L hab hn hs he hi hl hr hp hvs hl' hr'
        rw [rd_some hl', rd_some hr']
        simp only [Res.bind_ok]
        rw [e1, hcen]
        have ll := e10.length
        have e13 : a + ls'.length = (a + b) / 2 + 1 := by omega
        -- finishing after the recursive calls
        have fin : ∀ (h3 : List (RNode V U)) (v : V) (ls2 rs2 : List V), h3.length = hh1.length →
            (∀ j, ¬ Under i j → h3[j]? = hh1[j]?) → h3[i]? = some n1 →
            Rep X P act h3 (2 * i + 1) a ((a + b) / 2) ls2 → Rep X P act h3 (2 * i + 2) ((a + b) / 2 + 1) b rs2 →
            ∃ h', (do
              let n ← rd h3 i
              let l ← rd h3 (2 * i + 1)
              let r ← rd h3 (2 * i + 2)
              Res.ok (v, put h3 i { n with value := X.join l.value r.value })) = .ok (v, h') ∧
              Rep X P act h' i a b (ls2 ++ rs2) ∧ h'.length = h.length ∧ ∀ j, ¬ Under i j → h'[j]? = h[j]? := by
          intro h3 v ls2 rs2 k1 k2 k3 k4 k5
          obtain ⟨l, r, h', g1, g2, g3, g4, g5, g6⟩ := rejoin L hab k3 e5 e6 e7 e8 e9 k4 k5
          refine ⟨h', ?_, g4, by omega, fun j hj => by rw [g6 j hj, k2 j hj, e3 j hj]⟩
          rw [rd_some k3, rd_some g1, rd_some g2]
          simp only [Res.bind_ok]
          rw [g3]
        have nul : ¬ Under (2 * i + 1) i := fun hu => by have := hu.le; omega
        have nur : ¬ Under (2 * i + 2) i := fun hu => by have := hu.le; omega
        subst e12
        rw [upd_append, e13]
        by_cases c1 : s ≤ (a + b) / 2 ∧ e > (a + b) / 2
        · rw [if_pos c1]
          obtain ⟨h2', w1, w2, w3, w4⟩ := ih e10 h1 c1.1 (Nat.le_refl _) (by omega)
          have rr : Rep X P act h2' (2 * i + 2) ((a + b) / 2 + 1) b rs' :=
            e11.frame fun j hj => w4 j fun hu => under_disjoint hu hj
          obtain ⟨h3', y1, y2, y3, y4⟩ := ih rr (Nat.le_refl _) (show _ ≤ e by omega) h3 (by omega)
          rw [w1]; simp only [Res.bind_ok]
          rw [y1]; simp only [Res.bind_ok]
          have eL : upd g s ((a + b) / 2) a ls' = upd g s e a ls' :=
            upd_congr g fun p q1 q2 => by omega
          have eR : upd g ((a + b) / 2 + 1) e ((a + b) / 2 + 1) rs' = upd g s e ((a + b) / 2 + 1) rs' :=
            upd_congr g fun p q1 q2 => by omega
          have lr := e11.length
          rw [slice_both (by simp; omega) (by simp; omega),
            joinAll_append _ _ L.assoc _ _ (slice_ne_nil (by simp; omega) (by simp; omega))
              (slice_ne_nil (by omega) (by simp; omega))]
          rw [eL] at w2 ⊢
          rw [eR] at y2 ⊢
          have q1 : (upd g s e a ls').length - 1 = (a + b) / 2 - a := by simp; omega
          have q2 : e - a - (upd g s e a ls').length = e - ((a + b) / 2 + 1) := by simp; omega
          have q3 : (a + b) / 2 + 1 - ((a + b) / 2 + 1) = 0 := by omega
          rw [q1, q2, q3]
          exact fin h3' _ _ _ (by omega)
            (fun j hj => by rw [y4 j (fun hu => hj (under_right hu)), w4 j (fun hu => hj (under_left hu))])
            (by rw [y4 i nur, w4 i nul, e4]) (w2.frame fun j hj => y4 j fun hu => under_disjoint hj hu) y2
        · rw [if_neg c1]
          by_cases c2 : s ≤ (a + b) / 2
          · rw [if_pos c2]
            obtain ⟨h2', w1, w2, w3, w4⟩ := ih e10 h1 h2 (show e ≤ _ by omega) (by omega)
            rw [w1]; simp only [Res.bind_ok]
            rw [slice_left (by simp; omega), upd_outside (vs := rs') g (.inl (by omega))]
            exact fin h2' _ _ _ (by omega) (fun j hj => w4 j (fun hu => hj (under_left hu)))
              (by rw [w4 i nul, e4]) w2 (e11.frame fun j hj => w4 j fun hu => under_disjoint hu hj)
          · rw [if_neg c2, if_pos (by omega)]
            obtain ⟨h2', w1, w2, w3, w4⟩ := ih e11 (show _ ≤ s by omega) h2 h3 (by omega)
            rw [w1]; simp only [Res.bind_ok]
            rw [slice_right (by simp; omega) (by omega), upd_outside (vs := ls') g (.inr (by omega))]
            have q1 : s - a - ls'.length = s - ((a + b) / 2 + 1) := by omega
            have q2 : e - a - ls'.length = e - ((a + b) / 2 + 1) := by omega
            rw [q1, q2]
            exact fin h2' _ _ _ (by omega) (fun j hj => w4 j (fun hu => hj (under_right hu)))
              (by rw [w4 i nur, e4]) (e10.frame fun j hj => w4 j fun hu => under_disjoint hj hu) w2

end Verif.Seg
