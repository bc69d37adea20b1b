import Verif.Seg.Throw

/-! What a walk that may be interrupted leaves: the elements, and which inner nodes still hold the join of their elements. -/

namespace Verif.Seg
open Spec Verif.Heap TM
set_option linter.unusedSectionVars false
variable {T V U : Type}

/-- Elements after `g` on `[s, c)`. -/
def updN (g : Nat → V → V) (s c a : Nat) (vs : List V) : List V :=
  mapFrom (fun p v => if s ≤ p ∧ p < c then g p v else v) a vs

@[simp] theorem updN_length (g : Nat → V → V) (s c a : Nat) (vs : List V) : (updN g s c a vs).length = vs.length := by
  simp [updN]

theorem updN_append (g : Nat → V → V) (s c a : Nat) (xs ys : List V) :
    updN g s c a (xs ++ ys) = updN g s c a xs ++ updN g s c (a + xs.length) ys := mapFrom_append _ _ _ _

theorem updN_outside (g : Nat → V → V) {s c a : Nat} {vs : List V} (h : c ≤ a ∨ c ≤ s ∨ a + vs.length ≤ s) :
    updN g s c a vs = vs := by
  unfold updN
  rw [mapFrom_congr (g' := fun _ v => v) _ _ (fun p v h1 h2 => if_neg (by omega)), mapFrom_id]

theorem updN_id {g : Nat → V → V} (hg : ∀ p v, g p v = v) {s c a : Nat} {vs : List V} : updN g s c a vs = vs := by
  unfold updN
  rw [mapFrom_congr (g' := fun _ v => v) _ _ (fun p v h1 h2 => by rw [hg]; simp), mapFrom_id]

theorem updN_congr (g : Nat → V → V) {s c s' c' a : Nat} {vs : List V}
    (h : ∀ p, a ≤ p → p < a + vs.length → ((s ≤ p ∧ p < c) ↔ (s' ≤ p ∧ p < c'))) :
    updN g s c a vs = updN g s' c' a vs := by
  unfold updN
  apply mapFrom_congr
  intro p v h1 h2
  by_cases k : s ≤ p ∧ p < c
  · rw [if_pos k, if_pos ((h p h1 h2).1 k)]
  · rw [if_neg k, if_neg (fun k' => k ((h p h1 h2).2 k'))]

theorem updN_all (g : Nat → V → V) {s c a : Nat} {vs : List V} (h1 : s ≤ a) (h2 : a + vs.length ≤ c) :
    updN g s c a vs = mapFrom g a vs :=
  mapFrom_congr _ _ (fun p v h3 h4 => if_pos (by omega))

variable (X : Transform T V U) (P : U → Prop) (act : U → Nat → Nat → V → V)

/-- The subtree at cell `i` covers `[a, b]` and its leaves, with the marks above them, represent `vs`; an inner node over `[x, y]`
holds the join of its elements where `G x y`. -/
inductive RepG (G : Nat → Nat → Prop) (h : List (RNode V U)) : Nat → Nat → Nat → List V → Prop
  | leaf {i a : Nat} {n : RNode V U} (hn : h[i]? = some n) (hs : n.start = a) (he : n.stop = a) (hi : n.index = i) :
    RepG G h i a a [n.value]
  | node {i a b : Nat} {n : RNode V U} {ls rs vs : List V} (hab : a < b) (hn : h[i]? = some n) (hs : n.start = a)
    (he : n.stop = b) (hi : n.index = i) (hl : RepG G h (2 * i + 1) a ((a + b) / 2) ls)
    (hr : RepG G h (2 * i + 2) ((a + b) / 2 + 1) b rs) (hp : P n.lazy)
    (hvs : vs = mapFrom (fun p v => pend X act n.lazy p p v) a (ls ++ rs))
    (hv : G a b → n.value = joinAll X.join X.dflt vs) : RepG G h i a b vs

variable {X P act} {G : Nat → Nat → Prop}

theorem RepG.le {h : List (RNode V U)} {i a b vs} (r : RepG X P act G h i a b vs) : a ≤ b := by
  cases r <;> omega

theorem RepG.length {h : List (RNode V U)} {i a b vs} (r : RepG X P act G h i a b vs) : vs.length = b + 1 - a := by
  induction r with
  | leaf => simp
  | node hab hn hs he hi hl hr hp hvs hv ihl ihr => subst hvs; simp [ihl, ihr]; omega

theorem RepG.ne_nil {h : List (RNode V U)} {i a b vs} (r : RepG X P act G h i a b vs) : vs ≠ [] := by
  intro e
  have := r.length
  have := r.le
  simp [e] at *
  omega

theorem RepG.lt {h : List (RNode V U)} {i a b vs} (r : RepG X P act G h i a b vs) : i < h.length := by
  cases r with
  | leaf hn => exact (List.getElem?_eq_some_iff.1 hn).1
  | node hab hn => exact (List.getElem?_eq_some_iff.1 hn).1

theorem RepG.root {h : List (RNode V U)} {i a b vs} (r : RepG X P act G h i a b vs) :
    ∃ n, h[i]? = some n ∧ n.start = a ∧ n.stop = b ∧ n.index = i ∧
      (a = b ∨ G a b → n.value = joinAll X.join X.dflt vs) := by
  cases r with
  | leaf hn hs he hi => exact ⟨_, hn, hs, he, hi, fun _ => rfl⟩
  | node hab hn hs he hi hl hr hp hvs hv => exact ⟨_, hn, hs, he, hi, fun c => hv (c.resolve_left (by omega))⟩

theorem RepG.frame {h h' : List (RNode V U)} {i a b vs} (r : RepG X P act G h i a b vs)
    (e : ∀ j, Under i j → h'[j]? = h[j]?) : RepG X P act G h' i a b vs := by
  induction r with
  | leaf hn hs he hi => exact .leaf (by rw [e _ (under_self _)]; exact hn) hs he hi
  | node hab hn hs he hi hl hr hp hvs hv ihl ihr =>
    exact .node hab (by rw [e _ (under_self _)]; exact hn) hs he hi (ihl fun j hj => e j (under_left hj))
      (ihr fun j hj => e j (under_right hj)) hp hvs hv

theorem RepG.mono {h : List (RNode V U)} {i a b vs} (r : RepG X P act G h i a b vs) {G' : Nat → Nat → Prop}
    (g : ∀ x y, G' x y → G x y) : RepG X P act G' h i a b vs := by
  induction r with
  | leaf hn hs he hi => exact .leaf hn hs he hi
  | node hab hn hs he hi hl hr hp hvs hv ihl ihr => exact .node hab hn hs he hi ihl ihr hp hvs fun c => hv (g _ _ c)

/-- With every node right this is the representation of C55–C60. -/
theorem repG_of_rep {h : List (RNode V U)} {i a b vs} (r : Rep X P act h i a b vs) : RepG X P act G h i a b vs := by
  induction r with
  | leaf hn hs he hi => exact .leaf hn hs he hi
  | node hab hn hs he hi hl hr hp hvs hv ihl ihr => exact .node hab hn hs he hi ihl ihr hp hvs fun _ => hv

theorem rep_of_repG {h : List (RNode V U)} {i a b vs} (r : RepG X P act G h i a b vs)
    (g : ∀ x y, a ≤ x → x < y → y ≤ b → G x y) : Rep X P act h i a b vs := by
  induction r with
  | leaf hn hs he hi => exact .leaf hn hs he hi
  | node hab hn hs he hi hl hr hp hvs hv ihl ihr =>
    exact .node hab hn hs he hi (ihl fun x y h1 h2 h3 => g x y h1 h2 (by omega))
      (ihr fun x y h1 h2 h3 => g x y (by omega) h2 h3) hp hvs (hv (g _ _ (Nat.le_refl _) hab (Nat.le_refl _)))

theorem RepG.push (L : Lawful X P act) {h h' : List (RNode V U)} {i a b vs} (r : RepG X P act G h i a b vs) {u : U}
    (hu : P u) (hh : X.has u = true) {c c' : RNode V U} (hc : h[i]? = some c) (hc' : h'[i]? = some c')
    (e : ∀ j, Under i j → j ≠ i → h'[j]? = h[j]?)
    (h1 : c'.start = c.start) (h2 : c'.stop = c.stop) (h3 : c'.index = c.index)
    (h4 : c'.value = act u c.start c.stop c.value)
    (h5 : c.start < c.stop → P c.lazy → P c'.lazy ∧ ∀ p v, c.start ≤ p → p ≤ c.stop →
          pend X act c'.lazy p p v = act u p p (pend X act c.lazy p p v)) :
    RepG X P act G h' i a b (mapFrom (fun p v => act u p p v) a vs) := by
  have len := r.length
  have ne := r.ne_nil
  have le := r.le
  cases r with
  | leaf hn hs he hi =>
    rw [hn] at hc; injection hc with hc; subst hc
    rename_i n
    have : mapFrom (fun p v => act u p p v) a [n.value] = [c'.value] := by
      simp only [mapFrom]; rw [h4, hs, he]
    rw [this]
    exact .leaf hc' (h1.trans hs) (h2.trans he) (h3.trans hi)
  | node hab hn hs he hi hl hr hp hvs hv =>
    rw [hn] at hc; injection hc with hc; subst hc
    obtain ⟨p1, p2⟩ := h5 (by omega) hp
    refine .node hab hc' (h1.trans hs) (h2.trans he) (h3.trans hi)
      (hl.frame fun j hj => e j (under_left hj) (by have := hj.le; omega))
      (hr.frame fun j hj => e j (under_right hj) (by have := hj.le; omega)) p1 ?_ ?_
    · rw [hvs, mapFrom_comp]
      apply mapFrom_congr
      intro p v q1 q2
      have l1 := hl.length
      have l2 := hr.length
      simp only [List.length_append, l1, l2] at q2
      rw [p2 p v (by omega) (by omega)]
    · intro g
      rw [h4, hs, he, hv g, ← pend_joinAll L hu hh vs a ne]
      congr 1
      omega

/-- `propagate` does not change the value of the node it clears. -/
def KeepVal (X : Transform T V U) (P : U → Prop) : Prop :=
  ∀ n l r, P n.lazy → X.has n.lazy = true → (X.propagate n l r).1.value = n.value

/-- The children of an inner node hold its elements, nothing is pending at the node. -/
structure Opened (X : Transform T V U) (P : U → Prop) (act : U → Nat → Nat → V → V) (h : List (RNode V U)) (i a b : Nat)
    (n : RNode V U) : Prop where
  hab : a < b
  hn : h[i]? = some n
  hs : n.start = a
  he : n.stop = b
  hi : n.index = i
  hp : P n.lazy
  hid : ∀ p v, pend X act n.lazy p p v = v

theorem Opened.close {h : List (RNode V U)} {i a b n ls rs} (o : Opened X P act h i a b n)
    (hl : RepG X P act G h (2 * i + 1) a ((a + b) / 2) ls) (hr : RepG X P act G h (2 * i + 2) ((a + b) / 2 + 1) b rs)
    (hv : G a b → n.value = joinAll X.join X.dflt (ls ++ rs)) : RepG X P act G h i a b (ls ++ rs) :=
  .node o.hab o.hn o.hs o.he o.hi hl hr o.hp
    (by rw [mapFrom_congr (g' := fun _ v => v) _ _ (fun p v _ _ => o.hid p v), mapFrom_id]) hv

theorem pushDown_spec (L : Lawful X P act) {h : List (RNode V U)} {i a b k : Nat} {n l r : RNode V U} {ls rs vs : List V}
    (hab : a < b) (hn : h[i]? = some n) (hs : n.start = a)
    (he : n.stop = b) (hi : n.index = i) (hl : RepG X P act G h (2 * i + 1) a ((a + b) / 2) ls)
    (hr : RepG X P act G h (2 * i + 2) ((a + b) / 2 + 1) b rs) (hp : P n.lazy)
    (hvs : vs = mapFrom (fun p v => pend X act n.lazy p p v) a (ls ++ rs))
    (hl' : h[2 * i + 1]? = some l) (hr' : h[2 * i + 2]? = some r) :
    Post (pushDown X i n l r) k h fun q h1 => match q with
      | none => h1 = h
      | some _ => h1.length = h.length ∧ (∀ j, ¬ Under i j → h1[j]? = h[j]?) ∧
        ∃ n1 ls' rs', Opened X P act h1 i a b n1 ∧ (KeepVal X P → n1.value = n.value) ∧
          RepG X P act G h1 (2 * i + 1) a ((a + b) / 2) ls' ∧
          RepG X P act G h1 (2 * i + 2) ((a + b) / 2 + 1) b rs' ∧ vs = ls' ++ rs' := by
  unfold pushDown
  rw [hi, leftOf_eq, rightOf_eq]
  by_cases hh : X.has n.lazy = true
  · rw [if_pos hh]
    refine post_bind (post_tick rfl fun k' => post_bind (post_store (post_bind (post_store (post_store ?_)))))
    have ll := hl.lt
    have lr := hr.lt
    obtain ⟨l0, a1, a2, a3, a4, -⟩ := hl.root
    rw [hl'] at a1; injection a1 with a1; subst a1
    obtain ⟨r0, b1, b2, b3, b4, -⟩ := hr.root
    rw [hr'] at b1; injection b1 with b1; subst b1
    obtain ⟨n', l', r', e1, ⟨c1, c2, c3, c4, c5⟩, e2⟩ := L.propagate n l r hp hh (by omega) (by omega)
      (by rw [a3, RNode.center, hs, he]) (by rw [b2, RNode.center, hs, he]) (by omega)
    have kv : KeepVal X P → n'.value = n.value := by
      intro K
      have := K n l r hp hh
      rw [e1] at this
      exact this
    rw [e1]
    simp only
    have g : ∀ j : Nat, (put (put (put h i n') (2 * i + 1) l') (2 * i + 2) r')[j]? =
        if j = 2 * i + 2 then some r' else if j = 2 * i + 1 then some l' else if j = i then some n' else h[j]? := by
      intro j
      unfold put
      simp only [List.getElem?_set, List.length_set]
      by_cases j1 : j = 2 * i + 2
      · subst j1; simp [lr]
      · by_cases j2 : j = 2 * i + 1
        · subst j2; simp [ll]
        · by_cases j3 : j = i
          · subst j3
            rw [if_neg (by omega), if_neg (by omega), if_pos rfl, if_pos (List.getElem?_eq_some_iff.1 hn).1,
              if_neg (by omega), if_neg (by omega), if_pos rfl]
          · simp [j1, j2, j3, Ne.symm j1, Ne.symm j2, Ne.symm j3]
    refine ⟨by simp [put], ?_, n', mapFrom (fun p v => act n.lazy p p v) a ls,
      mapFrom (fun p v => act n.lazy p p v) ((a + b) / 2 + 1) rs, ⟨hab, ?_, by omega, by omega, by omega, c4, c5⟩, kv, ?_, ?_, ?_⟩
    · intro j hj
      rw [g j, if_neg, if_neg, if_neg]
      · rintro rfl; exact hj (under_self _)
      · rintro rfl; exact hj (under_left (under_self _))
      · rintro rfl; exact hj (under_right (under_self _))
    · rw [g i, if_neg (by omega), if_neg (by omega), if_pos rfl]
    · obtain ⟨d1, d2, d3, d4, d5⟩ := e2 l l' (.inl ⟨rfl, rfl⟩)
      refine hl.push L hp hh hl' (by rw [g]; simp) (fun j hj hne => ?_) d1 d2 d3 d4 d5
      have := hj.le
      rw [g, if_neg, if_neg hne, if_neg (by omega)]
      rintro rfl
      exact under_disjoint hj (under_self _)
    · obtain ⟨d1, d2, d3, d4, d5⟩ := e2 r r' (.inr ⟨rfl, rfl⟩)
      refine hr.push L hp hh hr' (by rw [g]; simp) (fun j hj hne => ?_) d1 d2 d3 d4 d5
      have := hj.le
      rw [g, if_neg hne, if_neg, if_neg (by omega)]
      rintro rfl
      exact under_disjoint (under_self _) hj
    · have len := hl.length
      have e3 : a + ls.length = (a + b) / 2 + 1 := by omega
      have e4 : (fun p v => pend X act n.lazy p p v) = fun p v => act n.lazy p p v := by
        funext p v; unfold pend; rw [if_pos hh]
      rw [hvs, mapFrom_append, e3, e4]
  · rw [if_neg hh]
    have hpd : ∀ p v, pend X act n.lazy p p v = v := by intro p v; unfold pend; rw [if_neg hh]
    refine post_pure ⟨rfl, fun _ _ => rfl, n, ls, rs, ⟨hab, hn, hs, he, hi, hp, hpd⟩, fun _ => rfl, hl, hr, ?_⟩
    rw [hvs, mapFrom_congr (g' := fun _ v => v) _ _ (fun p v _ _ => hpd p v), mapFrom_id]

/-- What the final action must do. -/
structure FinalG (X : Transform T V U) (P : U → Prop) (act : U → Nat → Nat → V → V) (stp : RNode V U → Bool)
    (f : RNode V U → RNode V U) (g : Nat → V → V) : Prop where
  leaf : ∀ n, n.start = n.stop → (f n).start = n.start ∧ (f n).stop = n.stop ∧ (f n).index = n.index ∧
    (f n).value = g n.start n.value
  inner : ∀ n, n.start < n.stop → P n.lazy → stp n = true →
    (f n).start = n.start ∧ (f n).stop = n.stop ∧ (f n).index = n.index ∧ P (f n).lazy ∧
    (∀ p v, n.start ≤ p → p ≤ n.stop → pend X act (f n).lazy p p v = g p (pend X act n.lazy p p v)) ∧
    ∀ vs, vs.length = n.stop + 1 - n.start → n.value = joinAll X.join X.dflt vs →
      (f n).value = joinAll X.join X.dflt (mapFrom g n.start vs)

/-- A node is as right as its parts. -/
def Hered (G : Nat → Nat → Prop) : Prop := ∀ a b, a < b → G a b → G a ((a + b) / 2) ∧ G ((a + b) / 2 + 1) b

/-- Acting on the root cell of a subtree. -/
theorem RepG.final {stp : RNode V U → Bool} {f : RNode V U → RNode V U} {g : Nat → V → V} (F : FinalG X P act stp f g)
    {h : List (RNode V U)} {i a b vs n} (r : RepG X P act G h i a b vs) (hn : h[i]? = some n)
    (hst : n.leaf = true ∨ stp n = true) :
    RepG X P act G (put h i (f n)) i a b (mapFrom g a vs) ∧
      (a = b ∨ G a b → (f n).value = joinAll X.join X.dflt (mapFrom g a vs)) := by
  have hlt := (List.getElem?_eq_some_iff.1 hn).1
  have len := r.length
  cases r with
  | leaf hn' hs he hi =>
    rw [hn] at hn'; injection hn' with hn'; subst hn'
    obtain ⟨f1, f2, f3, f4⟩ := F.leaf n (hs.trans he.symm)
    have hu : mapFrom g a [n.value] = [(f n).value] := by simp [mapFrom, f4, hs]
    rw [hu]
    exact ⟨.leaf (by simp [put, hlt]) (by omega) (by omega) (by omega), fun _ => rfl⟩
  | node hab hn' hs he hi hl hr hp hvs hv =>
    rw [hn] at hn'; injection hn' with hn'; subst hn'
    have hlf : n.leaf = false := by simp [RNode.leaf]; omega
    obtain ⟨f1, f2, f3, f5, f6, f4⟩ := F.inner n (by omega) hp (by simpa [hlf] using hst)
    have val : G a b → (f n).value = joinAll X.join X.dflt (mapFrom g a vs) := by
      intro c
      rw [f4 vs (by omega) (hv c), hs]
    refine ⟨.node hab (n := f n) (by simp [put, hlt]) (by omega) (by omega) (by omega)
        (hl.frame fun j hj => ?_) (hr.frame fun j hj => ?_) f5 ?_ val, fun c => val (c.resolve_left (by omega))⟩
    · have := hj.le
      simp only [put, List.getElem?_set, if_neg (show ¬ i = j by omega)]
    · have := hj.le
      simp only [put, List.getElem?_set, if_neg (show ¬ i = j by omega)]
    · rw [hvs, mapFrom_comp]
      apply mapFrom_congr
      intro p v q1 q2
      have l1 := hl.length
      have l2 := hr.length
      simp only [List.length_append, l1, l2] at q2
      rw [f6 p v (by omega) (by omega)]

theorem put_frame {h : List (RNode V U)} {i : Nat} {n : RNode V U} (j : Nat) (hj : ¬ Under i j) :
    (put h i n)[j]? = h[j]? := by
  simp only [put, List.getElem?_set]
  rw [if_neg]
  rintro rfl
  exact hj (under_self _)

/-- What an interruptible walk over `[s, e]` leaves in the subtree `[a, b]` at `i`. -/
def WalkPost (X : Transform T V U) (P : U → Prop) (act : U → Nat → Nat → V → V) (G : Nat → Nat → Prop) (g : Nat → V → V)
    (kp : Prop) (h : List (RNode V U)) (i a b : Nat) (vs : List V) (s e : Nat) (r : Option (Nat × V))
    (h' : List (RNode V U)) : Prop :=
  h'.length = h.length ∧ (∀ j, ¬ Under i j → h'[j]? = h[j]?) ∧
  match r with
  | some (_, v) => RepG X P act G h' i a b (updN g s (e + 1) a vs) ∧
    (s = e ∨ (∀ x y, s ≤ x → x ≤ y → y ≤ e → G x y) →
      v = joinAll X.join X.dflt (slice (updN g s (e + 1) a vs) (s - a) (e - a)))
  | none => ∃ q c, s ≤ q ∧ q ≤ e ∧ q ≤ c ∧ c ≤ q + 1 ∧
    RepG X P act (fun x y => G x y ∧ (kp ∨ ¬ (x ≤ q ∧ q ≤ y))) h' i a b (updN g s c a vs)

theorem walkT_spec (L : Lawful X P act) (hG : Hered G) {stp : RNode V U → Bool} {fin : Option (RNode V U → RNode V U)}
    {g : Nat → V → V} (F : FinalG X P act stp (finOf fin) g) {kp : Prop} (hkp : kp → (∀ p v, g p v = v) ∧ KeepVal X P)
    (hfin : fin = none → ∀ p v, g p v = v) (fuel : Nat) :
    ∀ {h : List (RNode V U)} {i a b : Nat} {vs : List V} {s e k : Nat},
    RepG X P act G h i a b vs → a ≤ s → s ≤ e → e ≤ b → b - a < fuel →
    Post (walkT X stp fin fuel s e i) k h (WalkPost X P act G g kp h i a b vs s e) := by
  induction fuel with
  | zero => intro h i a b vs s e k _ _ _ _ hf; omega
  | succ fuel ih =>
    intro h i a b vs s e k rep h1 h2 h3 hf
    have len := rep.length
    have hle := rep.le
    obtain ⟨n, hn, hs, he, hi, hval⟩ := rep.root
    -- an exception before anything was changed
    have zero : WalkPost X P act G g kp h i a b vs s e none h :=
      ⟨rfl, fun _ _ => rfl, s, s, Nat.le_refl _, h2, Nat.le_refl _, by omega, by
        rw [updN_outside g (.inr (.inl (Nat.le_refl _)))]; exact rep.mono fun x y c => c.1⟩
    unfold walkT
    refine post_bind (post_cell hn ?_)
    simp only
    by_cases c : (n.start = s ∧ e = n.stop) ∧ (n.leaf = true ∨ stp n = true)
    · rw [if_pos c]
      obtain ⟨⟨c1, c2⟩, c3⟩ := c
      obtain rfl : s = a := by omega
      obtain rfl : e = b := by omega
      have hall : updN g s (e + 1) s vs = mapFrom g s vs := updN_all g (Nat.le_refl _) (by omega)
      cases fin with
      | none =>
        refine post_bind (post_tick zero fun k' => post_pure ⟨rfl, fun _ _ => rfl, ?_, fun hc => ?_⟩)
        · rw [updN_id (hfin rfl)]; exact rep
        · rw [updN_id (hfin rfl), slice_all_sub (by omega) (by omega)]
          exact hval (hc.imp_right fun hc => hc _ _ (Nat.le_refl _) h2 (Nat.le_refl _))
      | some f =>
        obtain ⟨r2, v2⟩ := rep.final F hn c3
        refine post_bind (post_tick zero fun k' => post_bind (post_store (post_bind (post_tick ?_ fun k'' => post_pure ?_))))
        · refine ⟨by simp [put], fun j hj => put_frame j hj, e, e + 1, h2, Nat.le_refl _, by omega, by omega, ?_⟩
          rw [hall]
          exact r2.mono fun x y c => c.1
        · refine ⟨by simp [put], fun j hj => put_frame j hj, by rw [hall]; exact r2, fun hc => ?_⟩
          rw [hall, slice_all_sub (by omega) (by simp; omega)]
          exact v2 (hc.imp_right fun hc => hc _ _ (Nat.le_refl _) h2 (Nat.le_refl _))
    · rw [if_neg c]
      cases rep with
      | leaf hn' hs' he' hi' =>
        exfalso
        apply c
        refine ⟨by omega, .inl ?_⟩
        simp [RNode.leaf]; omega
      | node hab hn' hs' he' hi' hl hr hp hvs hv =>
        rw [hn] at hn'; injection hn' with hn'; subst hn'
        rename_i ls0 rs0
        have hlf : n.leaf = false := by simp [RNode.leaf]; omega
        rw [if_pos hlf]
        have hcen : n.center = (a + b) / 2 := by rw [RNode.center, hs, he]
        obtain ⟨l, hl', -⟩ := hl.root
        obtain ⟨r, hr', -⟩ := hr.root
        have hli : leftOf n.index = 2 * i + 1 := by rw [hi, leftOf_eq]
        have hri : rightOf n.index = 2 * i + 2 := by rw [hi, rightOf_eq]
        simp only [hli, hri, hcen]
        refine post_bind (post_cell hl' (post_bind (post_cell hr' (post_bind ?_))))
        refine (pushDown_spec L hab hn hs he hi hl hr hp hvs hl' hr').mono fun q h1' hq => ?_
        cases q with
        | none => subst hq; exact zero
        | some q =>
          obtain ⟨k1, u1⟩ := q
          obtain ⟨e2, e3, n1, ls, rs, o, kv, rl, rr, evs⟩ := hq
          simp only
          have ll := rl.length
          have lr := rr.length
          have e13 : a + ls.length = (a + b) / 2 + 1 := by omega
          have nul : ¬ Under (2 * i + 1) i := fun hu => by have := hu.le; omega
          have nur : ¬ Under (2 * i + 2) i := fun hu => by have := hu.le; omega
          -- an exception below or at this node, once the children are `ls2` and `rs2`
          have stop : ∀ (h3 : List (RNode V U)) (q c : Nat) (ls2 rs2 : List V), h3.length = h1'.length →
              (∀ j, ¬ Under i j → h3[j]? = h1'[j]?) → h3[i]? = some n1 → s ≤ q → q ≤ e → q ≤ c → c ≤ q + 1 →
              RepG X P act (fun x y => G x y ∧ (kp ∨ ¬ (x ≤ q ∧ q ≤ y))) h3 (2 * i + 1) a ((a + b) / 2) ls2 →
              RepG X P act (fun x y => G x y ∧ (kp ∨ ¬ (x ≤ q ∧ q ≤ y))) h3 (2 * i + 2) ((a + b) / 2 + 1) b rs2 →
              ls2 ++ rs2 = updN g s c a vs → WalkPost X P act G g kp h i a b vs s e none h3 := by
            intro h3 q c ls2 rs2 k1 k2 k3 q1 q2 q3 q4 k4 k5 k6
            refine ⟨by omega, fun j hj => by rw [k2 j hj, e3 j hj], q, c, q1, q2, q3, q4, ?_⟩
            rw [← k6]
            refine Opened.close (n := n1) ⟨o.hab, k3, o.hs, o.he, o.hi, o.hp, o.hid⟩ k4 k5 fun hc => ?_
            rcases hc with ⟨hc1, hc2 | hc2⟩
            · obtain ⟨hg, hk⟩ := hkp hc2
              rw [kv hk, hv hc1, k6, updN_id hg]
            · exact absurd ⟨by omega, by omega⟩ hc2
          have nothing : WalkPost X P act G g kp h i a b vs s e none h1' :=
            stop h1' s s ls rs rfl (fun _ _ => rfl) o.hn (Nat.le_refl _) h2 (Nat.le_refl _) (by omega)
              (rl.mono fun x y c => c.1) (rr.mono fun x y c => c.1)
              (by rw [updN_outside g (.inr (.inl (Nat.le_refl _))), evs])
          -- joining the node back once the children are `ls2` and `rs2`
          have fini : ∀ (h3 : List (RNode V U)) (v : V) (k : Nat) (ls2 rs2 : List V), h3.length = h1'.length →
              (∀ j, ¬ Under i j → h3[j]? = h1'[j]?) → h3[i]? = some n1 →
              RepG X P act G h3 (2 * i + 1) a ((a + b) / 2) ls2 →
              RepG X P act G h3 (2 * i + 2) ((a + b) / 2 + 1) b rs2 → ls2 ++ rs2 = updN g s (e + 1) a vs →
              (s = e ∨ (∀ x y, s ≤ x → x ≤ y → y ≤ e → G x y) →
                v = joinAll X.join X.dflt (slice (updN g s (e + 1) a vs) (s - a) (e - a))) →
              Post (do
                let n ← cell i
                let l ← cell (2 * i + 1)
                let r ← cell (2 * i + 2)
                tick
                store i { n with value := X.join l.value r.value }
                pure v : TM V U V) k h3 (WalkPost X P act G g kp h i a b vs s e) := by
            intro h3 v k ls2 rs2 k1 k2 k3 k4 k5 k6 k7
            obtain ⟨l3, a1, a2, a3, a4, a5⟩ := k4.root
            obtain ⟨r3, b1, b2, b3, b4, b5⟩ := k5.root
            have hlt := (List.getElem?_eq_some_iff.1 k3).1
            refine post_bind (post_cell k3 (post_bind (post_cell a1 (post_bind (post_cell b1 (post_bind (post_tick ?_ fun k' =>
              post_bind (post_store (post_pure ?_)))))))))
            · exact stop h3 e (e + 1) ls2 rs2 k1 k2 k3 h2 (Nat.le_refl _) (by omega) (by omega)
                (k4.mono fun x y c => c.1) (k5.mono fun x y c => c.1) k6
            · refine ⟨by simp [put]; omega, fun j hj => by rw [put_frame j hj, k2 j hj, e3 j hj], ?_, k7⟩
              rw [← k6]
              refine Opened.close (n := { n1 with value := X.join l3.value r3.value })
                ⟨o.hab, by simp [put, hlt], o.hs, o.he, o.hi, o.hp, o.hid⟩ (k4.frame fun j hj => ?_) (k5.frame fun j hj => ?_)
                fun hc => ?_
              · have := hj.le
                simp only [put, List.getElem?_set, if_neg (show ¬ i = j by omega)]
              · have := hj.le
                simp only [put, List.getElem?_set, if_neg (show ¬ i = j by omega)]
              · show X.join l3.value r3.value = _
                obtain ⟨g1, g2⟩ := hG a b hab hc
                rw [joinAll_append _ _ L.assoc _ _ k4.ne_nil k5.ne_nil, a5 (.inr g1), b5 (.inr g2)]
          by_cases c1 : s ≤ (a + b) / 2 ∧ e > (a + b) / 2
          · simp only [if_pos c1]
            have eL : updN g s ((a + b) / 2 + 1) a ls = updN g s (e + 1) a ls :=
              updN_congr g fun p q1 q2 => by omega
            have eR : updN g ((a + b) / 2 + 1) (e + 1) ((a + b) / 2 + 1) rs = updN g s (e + 1) ((a + b) / 2 + 1) rs :=
              updN_congr g fun p q1 q2 => by omega
            have eA : updN g s (e + 1) a ls ++ updN g s (e + 1) ((a + b) / 2 + 1) rs = updN g s (e + 1) a vs := by
              rw [evs, updN_append, e13]
            refine post_bind (post_bind (post_tick nothing fun k2 => post_bind ?_))
            refine (ih rl h1 c1.1 (Nat.le_refl _) (by omega)).mono fun q h2' hq => ?_
            obtain ⟨w3, w4, hq⟩ := hq
            have rr2 : RepG X P act G h2' (2 * i + 2) ((a + b) / 2 + 1) b rs :=
              rr.frame fun j hj => w4 j fun hu => under_disjoint hu hj
            have fr2 : ∀ j, ¬ Under i j → h2'[j]? = h1'[j]? := fun j hj => w4 j fun hu => hj (under_left hu)
            have rt2 : h2'[i]? = some n1 := by rw [w4 i nul]; exact o.hn
            cases q with
            | none =>
              obtain ⟨q, c, q1, q2, q3, q4, q5⟩ := hq
              refine stop h2' q c _ rs w3 fr2 rt2 q1 (by omega) q3 q4 q5 (rr2.mono fun x y c => c.1) ?_
              rw [evs, updN_append, e13, updN_outside (vs := rs) g (.inl (by omega))]
            | some q =>
              obtain ⟨k2', v2⟩ := q
              obtain ⟨w1, w2⟩ := hq
              refine post_bind ?_
              refine (ih rr2 (Nat.le_refl _) (show _ ≤ e by omega) h3 (by omega)).mono fun q h3' hq => ?_
              obtain ⟨y3, y4, hq⟩ := hq
              have rl3 := w1.frame fun j hj => y4 j fun hu => under_disjoint hj hu
              have fr3 : ∀ j, ¬ Under i j → h3'[j]? = h1'[j]? := fun j hj => by
                rw [y4 j (fun hu => hj (under_right hu)), fr2 j hj]
              have rt3 : h3'[i]? = some n1 := by rw [y4 i nur]; exact rt2
              cases q with
              | none =>
                obtain ⟨q, c, q1, q2, q3, q4, q5⟩ := hq
                refine stop h3' q c _ _ (by omega) fr3 rt3 (by omega) q2 q3 q4 (rl3.mono fun x y c => c.1) q5 ?_
                rw [evs, updN_append, e13]
                congr 1
                · exact updN_congr g fun p q1 q2 => by omega
                · exact updN_congr g fun p q1 q2 => by omega
              | some q =>
                obtain ⟨k3', v3⟩ := q
                obtain ⟨y1, y2⟩ := hq
                rw [eR] at y1 y2
                rw [eL] at rl3 w2
                refine post_bind (post_tick ?_ fun k4 => post_pure ?_)
                · exact stop h3' e (e + 1) _ _ (by omega) fr3 rt3 h2 (Nat.le_refl _) (by omega) (by omega)
                    (rl3.mono fun x y c => c.1) (y1.mono fun x y c => c.1) eA
                · refine fini h3' _ _ _ _ (by omega) fr3 rt3 rl3 y1 eA fun hc => ?_
                  have hc' : ∀ x y, s ≤ x → x ≤ y → y ≤ e → G x y := hc.resolve_left (by omega)
                  rw [← eA, slice_both (by simp; omega) (by simp; omega),
                    joinAll_append _ _ L.assoc _ _ (slice_ne_nil (by simp; omega) (by simp; omega))
                      (slice_ne_nil (by omega) (by simp; omega)),
                    w2 (.inr fun x y z1 z2 z3 => hc' x y z1 z2 (by omega)),
                    y2 (.inr fun x y z1 z2 z3 => hc' x y (by omega) z2 z3)]
                  have q1 : (updN g s (e + 1) a ls).length - 1 = (a + b) / 2 - a := by simp; omega
                  have q2 : e - a - (updN g s (e + 1) a ls).length = e - ((a + b) / 2 + 1) := by simp; omega
                  have q3 : (a + b) / 2 + 1 - ((a + b) / 2 + 1) = 0 := by omega
                  rw [q1, q2, q3]
          · simp only [if_neg c1]
            by_cases c2 : s ≤ (a + b) / 2
            · simp only [if_pos c2]
              refine post_bind ?_
              refine (ih rl h1 h2 (show e ≤ _ by omega) (by omega)).mono fun q h2' hq => ?_
              obtain ⟨w3, w4, hq⟩ := hq
              have rr2 : RepG X P act G h2' (2 * i + 2) ((a + b) / 2 + 1) b rs :=
                rr.frame fun j hj => w4 j fun hu => under_disjoint hu hj
              have fr2 : ∀ j, ¬ Under i j → h2'[j]? = h1'[j]? := fun j hj => w4 j fun hu => hj (under_left hu)
              have rt2 : h2'[i]? = some n1 := by rw [w4 i nul]; exact o.hn
              cases q with
              | none =>
                obtain ⟨q, c, q1, q2, q3, q4, q5⟩ := hq
                refine stop h2' q c _ rs w3 fr2 rt2 q1 q2 q3 q4 q5 (rr2.mono fun x y c => c.1) ?_
                rw [evs, updN_append, e13, updN_outside (vs := rs) g (.inl (by omega))]
              | some q =>
                obtain ⟨k2', v2⟩ := q
                obtain ⟨w1, w2⟩ := hq
                have eA : updN g s (e + 1) a ls ++ rs = updN g s (e + 1) a vs := by
                  rw [evs, updN_append, e13, updN_outside (vs := rs) g (.inl (by omega))]
                refine fini h2' _ _ _ _ w3 fr2 rt2 w1 rr2 eA fun hc => ?_
                rw [← eA, slice_left (by simp; omega)]
                exact w2 hc
            · simp only [if_neg c2, if_pos (show e > (a + b) / 2 by omega)]
              refine post_bind ?_
              refine (ih rr (show _ ≤ s by omega) h2 h3 (by omega)).mono fun q h2' hq => ?_
              obtain ⟨w3, w4, hq⟩ := hq
              have rl2 : RepG X P act G h2' (2 * i + 1) a ((a + b) / 2) ls :=
                rl.frame fun j hj => w4 j fun hu => under_disjoint hj hu
              have fr2 : ∀ j, ¬ Under i j → h2'[j]? = h1'[j]? := fun j hj => w4 j fun hu => hj (under_right hu)
              have rt2 : h2'[i]? = some n1 := by rw [w4 i nur]; exact o.hn
              cases q with
              | none =>
                obtain ⟨q, c, q1, q2, q3, q4, q5⟩ := hq
                refine stop h2' q c ls _ w3 fr2 rt2 q1 q2 q3 q4 (rl2.mono fun x y c => c.1) q5 ?_
                rw [evs, updN_append, e13, updN_outside (vs := ls) g (.inr (.inr (by omega)))]
              | some q =>
                obtain ⟨k2', v2⟩ := q
                obtain ⟨w1, w2⟩ := hq
                have eA : ls ++ updN g s (e + 1) ((a + b) / 2 + 1) rs = updN g s (e + 1) a vs := by
                  rw [evs, updN_append, e13, updN_outside (vs := ls) g (.inr (.inr (by omega)))]
                refine fini h2' _ _ _ _ w3 fr2 rt2 rl2 w1 eA fun hc => ?_
                rw [← eA, slice_right (by omega) (by omega), w2 hc]
                have q1 : s - a - ls.length = s - ((a + b) / 2 + 1) := by omega
                have q2 : e - a - ls.length = e - ((a + b) / 2 + 1) := by omega
                rw [q1, q2]

theorem RepG.monoOn {h : List (RNode V U)} {i a b vs} (r : RepG X P act G h i a b vs) {G' : Nat → Nat → Prop}
    (g : ∀ x y, a ≤ x → x < y → y ≤ b → G' x y → G x y) : RepG X P act G' h i a b vs := by
  induction r with
  | leaf hn hs he hi => exact .leaf hn hs he hi
  | node hab hn hs he hi hl hr hp hvs hv ihl ihr =>
    exact .node hab hn hs he hi (ihl fun x y h1 h2 h3 => g x y h1 h2 (by omega))
      (ihr fun x y h1 h2 h3 => g x y (by omega) h2 h3) hp hvs fun c => hv (g _ _ (Nat.le_refl _) hab (Nat.le_refl _) c)

/-- Reading one element rejoins the nodes above it: they become right where their parts are. -/
theorem walkT_point (L : Lawful X P act) {G' : Nat → Nat → Prop} {stp : RNode V U → Bool} {q : Nat}
    (hG : ∀ a b, a < b → G' a b → if a ≤ q ∧ q ≤ b then G' a ((a + b) / 2) ∧ G' ((a + b) / 2 + 1) b else G a b)
    (fuel : Nat) :
    ∀ {h : List (RNode V U)} {i a b : Nat} {vs : List V} {k : Nat},
    RepG X P act G h i a b vs → a ≤ q → q ≤ b → b - a < fuel →
    Post (walkT X stp none fuel q q i) k h fun r h' => match r with
      | none => True
      | some (_, v) => some v = vs[q - a]? ∧ h'.length = h.length ∧ (∀ j, ¬ Under i j → h'[j]? = h[j]?) ∧
        RepG X P act G' h' i a b vs := by
  induction fuel with
  | zero => intro h i a b vs k _ _ _ hf; omega
  | succ fuel ih =>
    intro h i a b vs k rep h1 h2 hf
    have len := rep.length
    obtain ⟨n, hn, hs, he, hi, hval⟩ := rep.root
    unfold walkT
    refine post_bind (post_cell hn ?_)
    simp only
    cases rep with
    | leaf hn' hs' he' hi' =>
      rw [hn] at hn'; injection hn' with hn'; subst hn'
      rw [if_pos ⟨⟨by omega, by omega⟩, .inl (by simp [RNode.leaf]; omega)⟩]
      refine post_bind (post_tick trivial fun k' => post_pure ⟨?_, rfl, fun _ _ => rfl, .leaf hn hs he hi⟩)
      rw [show q - a = 0 by omega]
      rfl
    | node hab hn' hs' he' hi' hl hr hp hvs hv =>
      rw [hn] at hn'; injection hn' with hn'; subst hn'
      rw [if_neg (by omega)]
      have hlf : n.leaf = false := by simp [RNode.leaf]; omega
      rw [if_pos hlf]
      have hcen : n.center = (a + b) / 2 := by rw [RNode.center, hs, he]
      obtain ⟨l, hl', -⟩ := hl.root
      obtain ⟨r, hr', -⟩ := hr.root
      have hli : leftOf n.index = 2 * i + 1 := by rw [hi, leftOf_eq]
      have hri : rightOf n.index = 2 * i + 2 := by rw [hi, rightOf_eq]
      simp only [hli, hri, hcen]
      refine post_bind (post_cell hl' (post_bind (post_cell hr' (post_bind ?_))))
      refine (pushDown_spec L hab hn hs he hi hl hr hp hvs hl' hr').mono fun q' h1' hq => ?_
      cases q' with
      | none => trivial
      | some q' =>
        obtain ⟨k1, u1⟩ := q'
        obtain ⟨e2, e3, n1, ls, rs, o, kv, rl, rr, evs⟩ := hq
        simp only
        have ll := rl.length
        have lr := rr.length
        have nul : ¬ Under (2 * i + 1) i := fun hu => by have := hu.le; omega
        have nur : ¬ Under (2 * i + 2) i := fun hu => by have := hu.le; omega
        have off : ∀ x y, x < y → ¬ (x ≤ q ∧ q ≤ y) → G' x y → G x y := fun x y hxy hq hg => by
          have := hG x y hxy hg
          rwa [if_neg hq] at this
        have fini : ∀ (h3 : List (RNode V U)) (v : V) (k : Nat), h3.length = h1'.length →
            (∀ j, ¬ Under i j → h3[j]? = h1'[j]?) → h3[i]? = some n1 →
            RepG X P act G' h3 (2 * i + 1) a ((a + b) / 2) ls →
            RepG X P act G' h3 (2 * i + 2) ((a + b) / 2 + 1) b rs → some v = vs[q - a]? →
            Post (do
              let n ← cell i
              let l ← cell (2 * i + 1)
              let r ← cell (2 * i + 2)
              tick
              store i { n with value := X.join l.value r.value }
              pure v : TM V U V) k h3 fun r h' => match r with
                | none => True
                | some (_, v) => some v = vs[q - a]? ∧ h'.length = h.length ∧ (∀ j, ¬ Under i j → h'[j]? = h[j]?) ∧
                  RepG X P act G' h' i a b vs := by
          intro h3 v k k1 k2 k3 k4 k5 k7
          obtain ⟨l3, a1, a2, a3, a4, a5⟩ := k4.root
          obtain ⟨r3, b1, b2, b3, b4, b5⟩ := k5.root
          have hlt := (List.getElem?_eq_some_iff.1 k3).1
          refine post_bind (post_cell k3 (post_bind (post_cell a1 (post_bind (post_cell b1 (post_bind (post_tick trivial fun k' =>
            post_bind (post_store (post_pure ?_)))))))))
          refine ⟨k7, by simp [put]; omega, fun j hj => by rw [put_frame j hj, k2 j hj, e3 j hj], ?_⟩
          rw [evs]
          refine Opened.close (n := { n1 with value := X.join l3.value r3.value })
            ⟨o.hab, by simp [put, hlt], o.hs, o.he, o.hi, o.hp, o.hid⟩ (k4.frame fun j hj => ?_) (k5.frame fun j hj => ?_)
            fun hc => ?_
          · have := hj.le
            simp only [put, List.getElem?_set, if_neg (show ¬ i = j by omega)]
          · have := hj.le
            simp only [put, List.getElem?_set, if_neg (show ¬ i = j by omega)]
          · show X.join l3.value r3.value = _
            have g12 := hG a b hab hc
            rw [if_pos ⟨h1, h2⟩] at g12
            rw [joinAll_append _ _ L.assoc _ _ k4.ne_nil k5.ne_nil, a5 (.inr g12.1), b5 (.inr g12.2)]
        simp only [if_neg (show ¬ (q ≤ (a + b) / 2 ∧ q > (a + b) / 2) by omega)]
        by_cases c2 : q ≤ (a + b) / 2
        · simp only [if_pos c2]
          refine post_bind ((ih rl h1 c2 (by omega)).mono fun r2 h2' hq => ?_)
          cases r2 with
          | none => trivial
          | some r2 =>
            obtain ⟨k2, v2⟩ := r2
            obtain ⟨w1, w2, w3, w4⟩ := hq
            refine fini h2' v2 k2 w2 (fun j hj => w3 j fun hu => hj (under_left hu)) (by rw [w3 i nul]; exact o.hn) w4
              ((rr.frame fun j hj => w3 j fun hu => under_disjoint hu hj).monoOn fun x y z1 z2 z3 => off x y z2 (by omega)) ?_
            rw [w1, evs, List.getElem?_append_left (by omega)]
        · simp only [if_neg c2, if_pos (show q > (a + b) / 2 by omega)]
          refine post_bind ((ih rr (show _ ≤ q by omega) h2 (by omega)).mono fun r2 h2' hq => ?_)
          cases r2 with
          | none => trivial
          | some r2 =>
            obtain ⟨k2, v2⟩ := r2
            obtain ⟨w1, w2, w3, w4⟩ := hq
            refine fini h2' v2 k2 w2 (fun j hj => w3 j fun hu => hj (under_right hu)) (by rw [w3 i nur]; exact o.hn)
              ((rl.frame fun j hj => w3 j fun hu => under_disjoint hj hu).monoOn fun x y z1 z2 z3 => off x y z2 (by omega)) w4 ?_
            rw [w1, evs, List.getElem?_append_right (by omega)]
            congr 1
            omega

end Verif.Seg
